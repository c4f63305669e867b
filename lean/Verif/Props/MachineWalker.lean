import Verif.Proofs.MachineWalker
import Verif.Props.Machine

/-!
# C130: skipping and walking on machines of another width

The properties of skips and walkers (C08, C24, C26, C27, C28) on a machine whose `usize` has any width: whatever the bytes, where
reading on this machine succeeds, skipping and walking on it do, and agree with it.
-/

namespace Revision

open Machine

variable {ι : Type} (M : Machine) (cfg : Cfg) (E : Env ι)

/-- The walkers of all other properties are those of a 64-bit machine. -/
theorem C130_host_walkers : host.openSeq cfg = SeqWalker.new cfg ∧ host.openMap cfg = MapWalker.new cfg ∧
    (∀ (β : Type) (f : Bytes → β), host.withBytes cfg f = withLengthPrefixedBytes cfg f) ∧
    ∀ (κ β : Type) (k : Codec κ) (v : Codec β) (pred : Bytes → Ordering) (w : MapWalker),
      host.findBytes cfg k v pred w = w.findBytes cfg k v pred := by
  have h : host.readLen cfg = readLen cfg := readLen_host rfl
  have hw : ∀ (β : Type) (f : Bytes → β), host.withBytes cfg f = withLengthPrefixedBytes cfg f := fun β f => by
    unfold Machine.withBytes withLengthPrefixedBytes
    rw [h]
  refine ⟨?_, ?_, hw, fun κ β k v pred w => ?_⟩
  · unfold Machine.openSeq SeqWalker.new
    rw [h]
  · unfold Machine.openMap MapWalker.new
    rw [h]
  · unfold Machine.findBytes MapWalker.findBytes
    rw [hw]

/-- On every machine skipping a value ends where reading it does, whatever the bytes. -/
theorem C130_skip (hx : ∀ i s a r, (E.extC i).dec s = .ok (a, r) → (E.extC i).skip s = .ok ((), r)) (t : Ty ι) (s r : Bytes)
    (v : t.denote E.X) (h : (M.codec cfg E t).dec s = .ok (v, r)) : (M.codec cfg E t).skip s = .ok ((), r) := by
  obtain ⟨_, h'⟩ := codec_agree (fun i s a r h => ⟨(), hx i s a r h⟩) t s v r h
  exact h'

/-- On every machine the skip over slices is the skip over readers. -/
theorem C130_skip_slice (hx : ∀ i s, (E.extC i).skipS s = (E.extC i).skip s) (t : Ty ι) (s : Bytes) :
    (M.codec cfg E t).skipS s = (M.codec cfg E t).skip s := by
  rw [codec_skipS (fun i => Rd.same (hx i)) t]

/-- On every machine the checking skip accepts what reading accepts and stops at the same place, whatever the bytes.

Missing for the full statement: a `SystemTime` by itself or directly inside tuples, ranges and arrays, for which it is false
(`C09_checked_skip_false`). -/
theorem C130_check_partial (hx : ∀ i s r, (E.extC i).check s = .ok ((), r) ↔ ∃ a, (E.extC i).dec s = .ok (a, r)) (t : Ty ι)
    (ht : t.checkExact = true) (s r : Bytes) :
    (M.codec cfg E t).check s = .ok ((), r) ↔ ∃ v, (M.codec cfg E t).dec s = .ok (v, r) :=
  codec_checks hx t ht s r

/-- And so for every type built of the types of a program, with every history, on whatever bytes.

Missing for the full statement: as for `C130_check_partial`. -/
theorem C130_check_program_partial [DecidableEq ι] (P : Program ι) (I : Impls P.kind) (hP : ∀ i, (P.body i).HandChecks) (n : Nat)
    (t : Ty ι) (ht : t.checkExact = true) (s r : Bytes) :
    (M.codec cfg (I.env n (M.program cfg P I n)) t).check s = .ok ((), r) ↔
      ∃ v, (M.codec cfg (I.env n (M.program cfg P I n)) t).dec s = .ok (v, r) :=
  codec_checks (program_checks P I hP n) t ht s r

/-- On every machine, for every type marked for it, `with_bytes` hands out the bytes of the value reading gives and stops at the same
place. -/
theorem C130_with_bytes {β : Type} (t : Ty ι) (ht : t.lengthPrefixed = true) (s r : Bytes) (v : t.denote E.X) (f : Bytes → β)
    (h : (M.codec cfg E t).dec s = .ok (v, r)) : M.withBytes cfg f s = .ok (f (t.raw v), r) := by
  obtain ⟨n, r1, hn⟩ := prefixed_len ht h
  rw [withBytes_moved hn]
  rw [prefixed_moved ht hn] at h
  exact C24_marked cfg E t ht _ r v f h

/-- On every machine the walker over a vector written element by element shows the elements reading gives, each in any of the ways
of looking at it, and skipping the others ends where reading does. -/
theorem C130_vec_walker {β : Type} (hx : ∀ i s a r, (E.extC i).dec s = .ok (a, r) → (E.extC i).skip s = .ok ((), r)) (t : Ty ι)
    (hb : vecUsesBulkEncoding cfg t = false) (s r : Bytes) (l : List (t.denote E.X))
    (h : (M.codec cfg E (.vec t)).dec s = .ok (l, r)) (os : List (Observer (M.codec cfg E t) β)) :
    ∃ r1 r2 w, M.openSeq cfg s = .ok (⟨l.length⟩, r1) ∧
      seqVisit os ⟨l.length⟩ r1 = .ok ((List.zipWith (fun o a => o.view a) os l, w), r2) ∧
      w.remaining = l.length - os.length ∧ w.skipRemaining (M.codec cfg E t).skip r2 = .ok ((), r) := by
  have hv : (M.codec cfg E (.vec t)).dec = (M.vecC cfg (E.cap t) (M.codec cfg E t)).dec := by
    clear h os
    unfold vecUsesBulkEncoding at hb
    cases t with
    | int k => cases k <;> simp_all [Machine.codec, Machine.vecOf]
    | _ => simp_all [Machine.codec, Machine.vecOf]
  rw [hv] at h
  obtain ⟨r1, h1, h2⟩ := Machine.vecC_dec_ok h
  obtain ⟨r2, h3, h4⟩ := seqVisit_readN os h2
  refine ⟨r1, r2, _, ?_, h3, rfl, ?_⟩
  · rw [Machine.openSeq, Rd.bind_of_ok h1]; rfl
  · obtain ⟨_, h5⟩ := Rd.Agree.readN (codec_agree (fun i s a r h => ⟨(), hx i s a r h⟩) t) _ _ _ _ h4
    exact h5

/-- The same for maps: the entries as they are written, of which the map that is read is built. -/
theorem C130_map_walker {β γ : Type} (hx : ∀ i s a r, (E.extC i).dec s = .ok (a, r) → (E.extC i).skip s = .ok ((), r))
    (k v : Ty ι) (s r : Bytes) (m : List (k.denote E.X × v.denote E.X)) (h : (M.codec cfg E (.btreeMap k v)).dec s = .ok (m, r))
    (os : List (Observer (M.codec cfg E k) β × Observer (M.codec cfg E v) γ)) :
    ∃ l r1 r2 w, m = btreeBuild (E.cmp k) Prod.fst l ∧ M.openMap cfg s = .ok (⟨l.length⟩, r1) ∧
      mapVisit os ⟨l.length⟩ r1 = .ok ((List.zipWith (fun o e => (o.1.view e.1, o.2.view e.2)) os l, w), r2) ∧
      w.remaining = l.length - os.length ∧
      w.skipRemaining (M.codec cfg E k).skip (M.codec cfg E v).skip r2 = .ok ((), r) := by
  obtain ⟨l, r1, hm, h1, h2⟩ := Machine.collC_dec_ok h
  obtain ⟨r2, h3, h4⟩ := mapVisit_readN os h2
  refine ⟨l, r1, r2, _, hm, ?_, h3, rfl, ?_⟩
  · rw [Machine.openMap, Rd.bind_of_ok h1]; rfl
  · have ha := fun t => codec_agree (M := M) (cfg := cfg) (fun i s a r h => ⟨(), hx i s a r h⟩) t
    obtain ⟨_, h5⟩ := Rd.Agree.readN (Machine.pairC_agree (ha k) (ha v)) _ _ _ _ h4
    exact h5

/-- On every machine, in bytes that hold entries in ascending order of their keys' bytes as a predicate sees them, `find_bytes` finds
the entry the predicate calls equal, with the reader at its value, or there is none and the reader is after the map. -/
theorem C130_find_bytes (hx : ∀ i s a r, (E.extC i).dec s = .ok (a, r) → (E.extC i).skip s = .ok ((), r)) (k v : Ty ι)
    (hk : k.lengthPrefixed = true) (s r : Bytes) (l : List (k.denote E.X × v.denote E.X))
    (h : (M.codec cfg E (.vec (.pair k v))).dec s = .ok (l, r)) (pred : Bytes → Ordering)
    (hs : l.Pairwise fun a b => pred (k.raw a.1) ≠ .lt → pred (k.raw b.1) = .gt) :
    let find := M.openMap cfg >>= fun w => M.findBytes cfg (M.codec cfg E k) (M.codec cfg E v) pred w
    (∃ pre e post r1 r2, l = pre ++ e :: post ∧ pred (k.raw e.1) = .eq ∧
        find s = .ok (true, r1) ∧ (M.codec cfg E v).dec r1 = .ok (e.2, r2)) ∨
    ((∀ e ∈ l, pred (k.raw e.1) ≠ .eq) ∧ find s = .ok (false, r)) := by
  obtain ⟨r0, h1, h2⟩ := Machine.vecC_dec_ok (c := pairC (M.codec cfg E k) (M.codec cfg E v)) h
  have ha := fun t => codec_agree (M := M) (cfg := cfg) (fun i s a r h => ⟨(), hx i s a r h⟩) t
  have := findLoop_readN (key := M.withBytes cfg id) (view := fun x : k.denote E.X => k.raw x)
    (fun s a r h => C130_with_bytes M cfg E k hk s r a id h) (ha k) (ha v) pred h2 hs
  simp only [Machine.openMap, Machine.findBytes, Rd.bind_assoc, Rd.pure_bind]
  rw [Rd.bind_of_ok h1]
  rcases this with ⟨pre, e, post, r1, r2, e1, e2, e3, e4, -⟩ | h
  · exact .inl ⟨pre, e, post, r1, r2, e1, e2, e3, e4⟩
  · exact .inr h

/-- And `find`, which decodes the keys. -/
theorem C130_find (hx : ∀ i s a r, (E.extC i).dec s = .ok (a, r) → (E.extC i).skip s = .ok ((), r)) (k v : Ty ι)
    (s r : Bytes) (l : List (k.denote E.X × v.denote E.X))
    (h : (M.codec cfg E (.vec (.pair k v))).dec s = .ok (l, r)) (pred : k.denote E.X → Ordering)
    (hs : l.Pairwise fun a b => pred a.1 ≠ .lt → pred b.1 = .gt) :
    let find := M.openMap cfg >>= fun w => w.find (M.codec cfg E k) (M.codec cfg E v) pred
    (∃ pre e post r1 r2, l = pre ++ e :: post ∧ pred e.1 = .eq ∧
        find s = .ok (true, r1) ∧ (M.codec cfg E v).dec r1 = .ok (e.2, r2)) ∨
    ((∀ e ∈ l, pred e.1 ≠ .eq) ∧ find s = .ok (false, r)) := by
  obtain ⟨r0, h1, h2⟩ := Machine.vecC_dec_ok (c := pairC (M.codec cfg E k) (M.codec cfg E v)) h
  have ha := fun t => codec_agree (M := M) (cfg := cfg) (fun i s a r h => ⟨(), hx i s a r h⟩) t
  have := findLoop_readN (key := (M.codec cfg E k).dec) (view := fun x : k.denote E.X => x)
    (fun s a r h => h) (ha k) (ha v) pred h2 hs
  simp only [Machine.openMap, MapWalker.find, Rd.bind_assoc, Rd.pure_bind]
  rw [Rd.bind_of_ok h1]
  rcases this with ⟨pre, e, post, r1, r2, e1, e2, e3, e4, -⟩ | h
  · exact .inl ⟨pre, e, post, r1, r2, e1, e2, e3, e4⟩
  · exact .inr h

/-- A length the machine cannot hold is not refused by the walkers either: they open as if it were its remainder modulo the width of
`usize`. -/
theorem C130_open (n : Nat) (hn : n < 2 ^ 64) (t : Bytes) :
    M.openSeq cfg (encLen cfg n ++ t) = .ok (⟨n % 2 ^ M.bits⟩, t) ∧ M.openMap cfg (encLen cfg n ++ t) = .ok (⟨n % 2 ^ M.bits⟩, t) := by
  have h := readLen_modulo M cfg n hn t
  constructor
  · rw [Machine.openSeq, Rd.bind_of_ok h]; rfl
  · rw [Machine.openMap, Rd.bind_of_ok h]; rfl

/-- A walker of a 32-bit machine over a sequence of 2³² + 1 elements shows one. -/
example (t : Bytes) : (small true).openSeq cfg (encLen cfg 4294967297 ++ t) = .ok (⟨1⟩, t) :=
  (C130_open (small true) cfg 4294967297 (by decide) t).1

/-- A 32-bit machine reads, skips and walks a vector of strings. -/
example : ((small true).codec .default demoEnv (.vec .string)).dec [2, 2, 104, 105, 1, 97, 9] = .ok (["hi", "a"], [9]) := by
  decide +kernel

example := C130_skip (small true) .default demoEnv (fun i => nomatch i) (.vec .string) [2, 2, 104, 105, 1, 97, 9] [9] ["hi", "a"]
  (by decide +kernel)

example : ((small true).codec .default demoEnv (.vec .string)).check [2, 2, 104, 105, 1, 97, 9] = .ok ((), [9]) :=
  (C130_check_partial (small true) .default demoEnv (fun i => nomatch i) (.vec .string) rfl [2, 2, 104, 105, 1, 97, 9] [9]).2
    ⟨["hi", "a"], by decide +kernel⟩

theorem demoProgram_handChecks (i) : (demoProgram.body i).HandChecks := by cases i <;> trivial

/-- A list of a program's documents: what the checking skip accepts on a 32-bit machine is read there. -/
example (n : Nat) (s r : Bytes) :
    ((small true).codec .default (demoImpls.env n ((small true).program .default demoProgram demoImpls n)) (.vec (.ext .doc))).check s
        = .ok ((), r) →
      ∃ v, ((small true).codec .default (demoImpls.env n ((small true).program .default demoProgram demoImpls n))
        (.vec (.ext .doc))).dec s = .ok (v, r) :=
  (C130_check_program_partial (small true) .default demoProgram demoImpls demoProgram_handChecks n (.vec (.ext .doc)) rfl s r).1

example := C130_skip_slice (small true) .default demoEnv (fun i => nomatch i) (.vec .string) [2, 2, 104, 105, 1, 97, 9]

example : (small true).withBytes .default List.length [2, 104, 105, 9] = .ok (2, [9]) :=
  C130_with_bytes (small true) .default demoEnv .string rfl [2, 104, 105, 9] [9] "hi" List.length (by decide +kernel)

example := C130_vec_walker (small true) .default demoEnv (fun i => nomatch i) .string rfl [2, 2, 104, 105, 1, 97, 9] [9] ["hi", "a"]
  (by decide +kernel) [⟨((small true).codec .default demoEnv .string).dec, id, fun _ _ _ h => h⟩]

example := C130_map_walker (small true) .default demoEnv (fun i => nomatch i) (.int .u8) .bool [2, 7, 1, 9, 0, 77] [77]
  (btreeBuild (demoEnv.cmp (.int .u8)) Prod.fst [((7 : BitVec 8), true), (9, false)]) (by rfl)
  [(⟨((small true).codec .default demoEnv (.int .u8)).dec, id, fun _ _ _ h => h⟩,
    ⟨((small true).codec .default demoEnv .bool).dec, id, fun _ _ _ h => h⟩)]

example := C130_find_bytes (small true) .default demoEnv (fun i => nomatch i) (.vec (.int .u8)) .bool rfl [2, 1, 2, 0, 1, 5, 1, 77] [77]
  [([2], false), ([5], true)] (by decide +kernel) (fun x => cmpBytes x [5]) (by
    simp only [List.pairwise_cons, List.mem_cons, List.not_mem_nil, or_false, forall_eq]
    exact ⟨by decide +kernel, by simp⟩)

example := C130_find (small true) .default demoEnv (fun i => nomatch i) (.int .u8) .bool [2, 7, 1, 9, 0, 77] [77]
  [(7, true), (9, false)] (by decide +kernel) (fun x : BitVec 8 => compare x.toNat 9) (by
    simp only [List.pairwise_cons, List.mem_cons, List.not_mem_nil, or_false, forall_eq]
    exact ⟨by decide +kernel, by simp⟩)

end Revision
