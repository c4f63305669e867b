import Verif.Proofs.DepthDerive
import Verif.Props.Program

/-! # C100: how deep reading recurses -/

namespace Revision

/-! ## C100 Reading recurses at most as deep as the input is long -/

/-- A reader allowed more levels of nesting than the input has bytes (and than the values made up by the user's
functions need, `d`) does what every reader allowed more levels does, on any input, valid or not: it gets the same value or
the same error, with the same rest.  So it never reaches the limit: reading any bytes as any type of any program ends, and
recurses at most once per byte.  Missing from the full property: programs with a `convert_fn` that nests the value it is
given deeper, which `Program.DepthFree` excludes. -/
theorem C100_depth_partial {ι : Type} [DecidableEq ι] (cfg : Cfg) (P : Program ι) (I : Impls P.kind) (hI : I.DepthFree)
    (d : Nat) (hP : P.DepthFree d) (s : Bytes) (n m : Nat) (hs : s.length + d < n) (hnm : n ≤ m) (i : ι) :
    (P.codec cfg I m i).dec s = ((P.codec cfg I n i).dec s).mapFst (Values.lift P.kind n m hnm i) ∧
      (P.codec cfg I m i).skip s = (P.codec cfg I n i).skip s ∧
      (P.codec cfg I m i).skipS s = (P.codec cfg I n i).skipS s ∧
      (P.codec cfg I m i).check s = (P.codec cfg I n i).check s := by
  have h := P.codec_maps cfg I hI hP n m hnm i
  have hs : s.length < n - d := by omega
  have same : ∀ x : Res (Unit × Bytes), x.mapFst (fun u => u) = x := fun x => by rcases x with ⟨_, _⟩ | _ | _ <;> rfl
  exact ⟨(h.dec s hs).1, (h.skip s hs).1.trans (same _), (h.skipS s hs).1.trans (same _),
    (h.check s hs).1.trans (same _)⟩

/-- Skipping calls no functions of the user, so there is nothing to assume of the program: a reader allowed more levels of
nesting than the input has bytes skips what every reader allowed more levels skips. -/
theorem C100_skip_depth {ι : Type} [DecidableEq ι] (cfg : Cfg) (P : Program ι) (I : Impls P.kind) (s : Bytes) (n m : Nat)
    (hs : s.length < n) (hnm : n ≤ m) (i : ι) :
    (P.codec cfg I m i).skip s = (P.codec cfg I n i).skip s ∧ (P.codec cfg I m i).skipS s = (P.codec cfg I n i).skipS s := by
  have h := P.codec_skipMaps cfg I n m hnm i
  have same : ∀ x : Res (Unit × Bytes), x.mapFst (fun u => u) = x := fun x => by rcases x with ⟨_, _⟩ | _ | _ <;> rfl
  exact ⟨(h.skip s hs).1.trans (same _), (h.skipS s hs).1.trans (same _)⟩

/-- The functions of the demonstration program. -/
theorem demoProgram_depthFree : demoProgram.DepthFree 0 := by
  intro i
  cases i with
  | tree =>
    refine forall_mem_pair ⟨forall_mem_pair ⟨fun _ _ _ _ _ => rfl, fun _ _ _ _ _ _ _ => rfl⟩
      ⟨fun _ _ _ _ _ => rfl, fun _ _ _ _ _ _ _ => rfl⟩, fun _ _ _ _ _ _ => rfl⟩ ⟨?_, fun _ _ _ _ _ _ => rfl⟩
    intro f hf
    rw [List.mem_singleton.1 hf]
    exact ⟨fun _ _ _ _ _ => rfl, fun _ _ _ _ _ _ _ => rfl⟩
  | doc =>
    intro f hf
    rcases List.mem_cons.1 hf with rfl | hf
    · exact ⟨fun _ _ _ _ _ => rfl, fun _ _ _ _ _ _ _ => rfl⟩
    rcases List.mem_cons.1 hf with rfl | hf
    · exact ⟨fun _ _ _ _ _ => rfl, fun _ _ _ _ _ _ _ => rfl⟩
    · rw [List.mem_singleton.1 hf]
      exact ⟨fun _ _ _ _ _ => rfl, fun _ _ _ _ _ _ _ => rfl⟩

/-- `k` trees of one child each around a tree without children. -/
def demoDeep : Nat → Bytes
  | 0 => [2, 1, 0]
  | k + 1 => 2 :: 1 :: 1 :: demoDeep k

theorem demoDeep_step (n : Nat) (t : Bytes) :
    (demoProgram.codec .default demoImpls (n + 1) .tree).dec (2 :: 1 :: 1 :: t) =
      ((demoProgram.codec .default demoImpls n .tree).dec t).mapFst
        (fun v => (⟨"Node", [⟨.vec (.ext .tree), [v]⟩]⟩ : EnumVal (DynAt demoProgram.kind n))) := by
  let f : Field demoProgram.kind :=
    ⟨"field_0", {}, .vec (.ext .tree), fun _ _ => .ok ([] : List _), fun _ _ _ v => .ok v⟩
  have h1 : (demoProgram.codec .default demoImpls (n + 1) .tree).dec (2 :: 1 :: 1 :: t) =
      decodeLegacyVariant ⟨2, false, false⟩ 2
        ((⟨"Node", {}, [f], fun _ _ _ => .panic⟩ : Variant demoProgram.kind).decl .default demoImpls n
          (demoProgram.codec .default demoImpls n)) (1 :: t) := rfl
  have h2 : (f.decl .default demoImpls n (demoProgram.codec .default demoImpls n)).legacyC.dec (1 :: t) =
      (do let l ← Rd.readN 1 (demoProgram.codec .default demoImpls n .tree).dec
          pure (⟨.vec (.ext .tree), l⟩ : DynAt demoProgram.kind n)) t := rfl
  rw [h1]
  simp only [decodeLegacyVariant, decodeStructBody, Variant.decl, List.map_cons, List.map_nil, decodeFields]
  rw [if_pos (by rfl)]
  simp only [Rd.bind_run, h2, Rd.readN]
  cases (demoProgram.codec .default demoImpls n .tree).dec t with
  | ok p => rfl
  | err e => rfl
  | panic => rfl

/-- There is no limit on the recursion: for every number of levels there is a record, of three bytes per level, which needs
them. -/
theorem C100_no_limit (k : Nat) :
    (demoDeep k).length = 3 * (k + 1) ∧
      (∀ n t, n ≤ k → (demoProgram.codec .default demoImpls n .tree).dec (demoDeep k ++ t) = .err .deserialize) ∧
      ∀ n t, k < n → ∃ v, (demoProgram.codec .default demoImpls n .tree).dec (demoDeep k ++ t) = .ok (v, t) := by
  induction k with
  | zero =>
    refine ⟨rfl, fun n t h => ?_, fun n t h => ?_⟩
    · rw [Nat.le_zero.1 h]; rfl
    · obtain ⟨n, rfl⟩ : ∃ k, n = k + 1 := ⟨n - 1, by omega⟩
      exact ⟨(⟨"Node", [⟨.vec (.ext .tree), ([] : List _)⟩]⟩ : EnumVal (DynAt demoProgram.kind n)), rfl⟩
  | succ k ih =>
    obtain ⟨h1, h2, h3⟩ := ih
    refine ⟨by simp only [demoDeep, List.length_cons, h1]; omega, fun n t h => ?_, fun n t h => ?_⟩
    · cases n with
      | zero => rfl
      | succ n =>
        change (demoProgram.codec .default demoImpls (n + 1) .tree).dec (2 :: 1 :: 1 :: (demoDeep k ++ t)) = _
        rw [demoDeep_step, h2 n t (by omega)]
        rfl
    · obtain ⟨n, rfl⟩ : ∃ k, n = k + 1 := ⟨n - 1, by omega⟩
      obtain ⟨v, hv⟩ := h3 n t (by omega)
      change ∃ v, (demoProgram.codec .default demoImpls (n + 1) .tree).dec (2 :: 1 :: 1 :: (demoDeep k ++ t)) = _
      rw [demoDeep_step, hv]
      exact ⟨_, rfl⟩

/-- Two trees in one, and a byte left over: readers allowed eleven levels or more skip the tree. -/
example (m : Nat) (h : 11 ≤ m) :
    (demoProgram.codec .default demoImpls m .tree).skip [2, 1, 2, 2, 1, 0, 2, 1, 0, 7] = .ok ((), [7]) := by
  rw [(C100_skip_depth .default demoProgram demoImpls [2, 1, 2, 2, 1, 0, 2, 1, 0, 7] 11 m (by decide) h .tree).1]
  rfl

/-- A tree of two levels, cut short: readers allowed ten levels or more agree. -/
example (m : Nat) (h : 10 ≤ m) :
    (demoProgram.codec .default demoImpls m .tree).dec [2, 1, 2, 2, 1, 0, 2, 0] = .err .io := by
  have := (C100_depth_partial .default demoProgram demoImpls demoImpls_depthFree 0 demoProgram_depthFree
    [2, 1, 2, 2, 1, 0, 2, 0] 10 m (by decide) h .tree).1
  rw [this]
  rfl

end Revision
