import Verif.Proofs.WorkDerive
import Verif.Proofs.WorkExact
import Verif.Proofs.WorkExactDerive
import Verif.Proofs.Size
import Verif.Spec.Demo
import Verif.Props.Program
import Verif.Props.Types

/-! C131: the work of reading. -/

namespace Revision

section
variable {ι : Type}

/-- C131: the counted readers are the readers of the type with a counter added. -/
theorem C131_counts (cfg : Cfg) (E : Env ι) (x : (i : ι) → Counted (E.X i)) (hx : ∀ i, (x i).Counts (E.extC i)) (t : Ty ι) :
    (t.counted cfg E x).Counts (t.codec cfg E) := Ty.counted_counts cfg E x hx t

/-- C131: so in a program of derived types. -/
theorem C131_counts_program [DecidableEq ι] (cfg : Cfg) (P : Program ι) (I : Impls P.kind) (n : Nat) (i : ι) :
    (P.counted cfg I n i).Counts (P.codec cfg I n i) := Program.counted_counts cfg P I n i

theorem Ct.Costs.linear {m : Ct α} {Z R n : Nat} {w : Bool} (h : m.Costs Z R n w) : m.Linear n R := by
  refine fun s => ⟨h.2 s, fun v r e => ?_⟩
  have h1 := h.1 s (m s).1 v r (by rw [← show (m s).2 = .ok (v, r) from e])
  show (m s).1 ≤ _
  rcases Nat.le_total r.length s.length with hl | hl
  · have e1 : s.length = (s.length - r.length) + r.length := by omega
    generalize s.length - r.length = d at e1 ⊢
    rw [e1, Nat.mul_add] at h1
    omega
  · have := Nat.mul_le_mul_left R hl
    omega

theorem Counted.Costs.linear {c : Counted α} {Z R n : Nat} {w : Bool} (h : c.Costs Z R n w) : c.Linear n R :=
  ⟨h.dec.linear, h.skip.linear, h.skipS.linear, h.check.linear⟩

theorem Ct.Linear.costs {m : Ct α} {Z R b : Nat} (h : m.Linear 1 b) (hw : m.erase.TakesByte) (hR : b + Z ≤ R) : m.Costs Z R 1 true := by
  refine ⟨fun s k v r e => ?_, fun s => ?_⟩
  · have e' : m.erase s = .ok (v, r) := congrArg Prod.snd e
    have h1 := (h s).2 v r e'
    have h2 := hw s v r e'
    have e1 : s.length = (s.length - r.length) + r.length := by omega
    have h0 : 1 ≤ s.length - r.length := by omega
    have e2 : m.steps s = k := congrArg Prod.fst e
    rw [e2] at h1
    generalize s.length - r.length = d at e1 h0 h1
    rw [e1, Nat.mul_add]
    have h3 := Nat.mul_le_mul_right d hR
    have h4 := Nat.mul_le_mul_left Z h0
    rw [Nat.add_mul] at h3
    simp only [if_true]
    omega
  · have h1 := (h s).1
    have h3 := Nat.mul_le_mul_right s.length (show b ≤ R by omega)
    have h1 : (m s).1 ≤ _ := h1
    omega

/-- C131: on every input, well-formed or not, decoding, skipping and validating make at most `t.breadth` calls and
`b + 2 * t.widest + 8` calls for each byte of the input (if they succeed, for each byte taken), where the two
numbers depend on the type alone and the further types take at most `1 + b` for each of theirs.
Missing for the full statement: collections of elements that take no bytes (`C131_unit_false`). -/
theorem C131_linear_partial (cfg : Cfg) (E : Env ι) (x : (i : ι) → Counted (E.X i)) (b : Nat)
    (hc : ∀ i, (x i).Counts (E.extC i)) (hw : ∀ i, (E.extC i).Weighty) (hx : ∀ i, (x i).Linear 1 b) (t : Ty ι)
    (ht : t.solid = true) : (t.counted cfg E x).Linear t.breadth (b + 2 * t.widest + 8) := by
  refine (Ty.counted_costs (Z := t.widest) cfg E x (fun i => ?_) (by omega) (by omega) t ht (Nat.le_refl _)).linear
  have hi := hx i
  have hR : b + t.widest ≤ b + 2 * t.widest + 8 := by omega
  exact ⟨hi.dec.costs (by rw [(hc i).dec]; exact (hw i).dec) hR, hi.skip.costs (by rw [(hc i).skip]; exact (hw i).skip) hR,
    hi.skipS.costs (by rw [(hc i).skipS]; exact (hw i).skipS) hR, hi.check.costs (by rw [(hc i).check]; exact (hw i).check) hR⟩

/-- C131 for programs of derived types: if the fields of every type (of every variant) take at most `D` calls not counting
those behind a tag or a length prefix, reading any type of the program takes at most one call and `2 * D + 8` for
each byte of the input, for every declaration, attribute and older revision, and to any depth of nesting.
Missing for the full statement: collections of elements that take no bytes (`C131_unit_false`). -/
theorem C131_program_partial [DecidableEq ι] (cfg : Cfg) (P : Program ι) (I : Impls P.kind) (D : Nat)
    (hP : ∀ i, ∀ t ∈ (P.body i).types, t.solid = true) (hD : ∀ i, (P.body i).Within D) (n : Nat) (i : ι) :
    (P.counted cfg I n i).Linear 1 (2 * D + 8) :=
  (Program.counted_costs cfg P I (by omega) (by omega) hP hD n i).linear

/-- C131: reading a serialised value, whatever follows it, takes exactly one call for every value in it, and skipping it
takes no more. -/
theorem C131_exact (cfg : Cfg) (E : Env ι) (hE : E.Lawful) (x : (i : ι) → Counted (E.X i)) (nx : (i : ι) → E.X i → Nat)
    (hc : ∀ i, (x i).Counts (E.extC i)) (hx : ∀ i, (x i).Exact (E.extC i) (nx i)) (t : Ty ι) :
    (t.counted cfg E x).Exact (t.codec cfg E) (t.nodes E.X nx) :=
  (Ty.counted_follows cfg (fun t => (Ty.codec_lawful cfg hE t).back) x hc nx (fun i => (hx i).follows (hc i) (hE.ext i).back) t).exact

/-- C131: so for every type of a program of derived types, to any depth of nesting, whatever the attributes of the fields: reading
a serialised value takes exactly one call for every value in it, fields included, and skipping it takes no more.
Missing for the full statement: fields declared `specialised` when the crate is built without specialised vectors, whose skip does
not fit their data (`C55_specialised_false`). -/
theorem C131_exact_program_partial [DecidableEq ι] (cfg : Cfg) (P : Program ι) (I : Impls P.kind)
    (htrans : ∀ n t, Std.TransCmp (I.cmp n t)) (hP : P.Readable cfg P.current) (n : Nat) (i : ι) :
    (P.counted cfg I n i).Exact (P.codec cfg I n i) (Values.nodes P.kind n i) :=
  Program.counted_exact cfg P I htrans hP n i

/-- C131: a value of a derived type that was never without `optimised` is skipped in one call, whatever it contains and whatever
the bytes are. -/
theorem C131_skip_optimised [DecidableEq ι] (cfg : Cfg) (P : Program ι) (I : Impls P.kind) (n : Nat) (i : ι)
    (hi : ∀ e ∈ P.history i, e.optimised = true) (hf : ∀ X, P.kind i ≠ .foreign X) (s : Bytes) :
    (P.counted cfg I n i).skip.steps s = 1 ∧ (P.counted cfg I n i).skipS.steps s = 1 := by
  cases n with
  | zero => exact ⟨rfl, rfl⟩
  | succ n =>
    exact Body.skip_optimised cfg I n _ _ (P.history i) hi hf (P.body i) s

/-- Elements that take no bytes take steps. -/
theorem C131_unit_false (n : Nat) (hn : n < 2 ^ 64) : ∃ s : Bytes, s.length ≤ 9 ∧
    ((Ty.vec .unit).counted .default demoEnv.unlimited (nomatch ·)).dec.steps s = n + 1 ∧
    ((Ty.vec .unit).counted .default demoEnv.unlimited (nomatch ·)).skip.steps s = n + 1 ∧
    ((Ty.vec .unit).counted .default demoEnv.unlimited (nomatch ·)).check.steps s = n + 1 := by
  have hr : readLen .default (encLen .default n ++ []) = .ok (n, []) := readLen_encLen .default hn []
  have hl : (encLen .default n).length ≤ 9 := encLen_most .default n
  have rN : ∀ (c : Counted Unit), c.dec.Gives [] 1 () [] → ∀ k, (Ct.readN k c.dec).Gives [] k (List.replicate k ()) [] := by
    intro c hc k
    induction k with
    | zero => rfl
    | succ k ih => exact (hc.bind ih.map).cast (Nat.add_comm 1 k)
  have rS : ∀ (m : Ct Unit), m.Gives [] 1 () [] → ∀ k, (Ct.repeatN k m).Gives [] k () [] := by
    intro m hm k
    induction k with
    | zero => rfl
    | succ k ih => exact (hm.bind ih).cast (Nat.add_comm 1 k)
  have u : (Ty.unit.counted .default demoEnv.unlimited (nomatch ·) : Counted _).dec.Gives [] 1 () [] := rfl
  have us : (Ty.unit.counted .default demoEnv.unlimited (nomatch ·) : Counted _).skip.Gives [] 1 () [] := rfl
  have d : (Counted.vec .default (demoEnv.unlimited.cap .unit) (Ty.unit.counted .default demoEnv.unlimited (nomatch ·))).dec.Gives
      (encLen .default n ++ []) n (List.replicate n ()) [] := by
    refine (Ct.Gives.of hr).bind0 ?_
    cases n with
    | zero => rfl
    | succ n => exact .ofFalse (Nat.succ_ne_zero n) (.alloc rfl (rN _ u (n + 1)))
  have k : (Counted.vec .default (demoEnv.unlimited.cap .unit) (Ty.unit.counted .default demoEnv.unlimited (nomatch ·))).skip.Gives
      (encLen .default n ++ []) n () [] := (Ct.Gives.of hr).bind0 (rS _ us n)
  refine ⟨encLen .default n ++ [], by simpa using hl, ?_, ?_, ?_⟩
  · exact (congrArg Prod.fst ((Ct.Gives.tick 1 _).bind d)).trans (Nat.add_comm 1 n)
  · exact (congrArg Prod.fst ((Ct.Gives.tick 1 _).bind k)).trans (Nat.add_comm 1 n)
  · exact (congrArg Prod.fst ((Ct.Gives.tick 1 _).bind (d.map (g := fun _ => ())))).trans (Nat.add_comm 1 n)

end

/-! ### Examples -/

/-- A map of a number to two optional strings, and another to none: eight values in it. -/
example (t : Bytes) : (demoTy.counted .default demoEnv (nomatch ·)).dec.steps ([2, 5, 2, 1, 2, 195, 169, 0, 251, 88, 2, 0] ++ t) = 8 :=
  (C131_exact .default demoEnv demoEnv_lawful (nomatch ·) (nomatch ·) (nomatch ·) (nomatch ·) demoTy).dec demoVal _
    (demoTy.valid_of .default demoEnv_lawful _ demo_wf demo_fits) (by decide +kernel) t

example : demoTy.solid = true ∧ demoTy.breadth = 1 ∧ demoTy.widest = 2 := ⟨rfl, rfl, rfl⟩

/-- On every input: at most one call and twelve for each byte. -/
example (s : Bytes) : (demoTy.counted .default demoEnv (nomatch ·)).dec.steps s ≤ 1 + 12 * s.length :=
  ((C131_linear_partial .default demoEnv (nomatch ·) 0 (nomatch ·) (nomatch ·) (nomatch ·) demoTy rfl).dec s).1

theorem demoProgram_within (i : DemoType) : (demoProgram.body i).Within 3 := by
  cases i with
  | tree =>
    intro v hv
    rcases List.mem_cons.1 hv with rfl | hv
    · refine ⟨by decide, fun f hf => ?_⟩
      rcases List.mem_cons.1 hf with rfl | hf
      · decide
      · cases List.mem_singleton.1 hf
        decide
    · cases List.mem_singleton.1 hv
      refine ⟨by decide, fun f hf => ?_⟩
      cases List.mem_singleton.1 hf
      decide
  | doc =>
    refine ⟨by decide, fun f hf => ?_⟩
    rcases List.mem_cons.1 hf with rfl | hf
    · decide
    · rcases List.mem_cons.1 hf with rfl | hf
      · decide
      · cases List.mem_singleton.1 hf
        decide

theorem demoProgram_solid (i : DemoType) : ∀ t ∈ (demoProgram.body i).types, t.solid = true := by
  cases i <;> decide

/-- The recursive program: reading a document takes at most one call and fourteen for each byte, however deep it nests. -/
example (n : Nat) (s : Bytes) : (demoProgram.counted .default demoImpls n .doc).dec.steps s ≤ 1 + 14 * s.length :=
  ((C131_program_partial .default demoProgram demoImpls 3 demoProgram_solid demoProgram_within n .doc).dec s).1

/-- The counted program reads what the program reads. -/
example (n : Nat) (i : DemoType) : (demoProgram.counted .default demoImpls n i).dec.erase = (demoProgram.codec .default demoImpls n i).dec :=
  (C131_counts_program .default demoProgram demoImpls n i).dec

/-- Two trees of two leaves: the document, its title, the vector, per tree itself, its vector, the leaf with its two fields,
the empty node with its vector; and the absent next document. -/
example : ((demoProgram.counted .default demoImpls 4 .doc).dec.steps
      [1, 25, 0, 0, 0, 1, 100, 0, 2, 2, 1, 2, 2, 0, 5, 0, 2, 1, 0, 2, 1, 2, 2, 0, 5, 0, 2, 1, 0, 0] = 18) ∧
    ((demoProgram.counted .default demoImpls 4 .doc).check.steps
      [1, 25, 0, 0, 0, 1, 100, 0, 2, 2, 1, 2, 2, 0, 5, 0, 2, 1, 0, 2, 1, 2, 2, 0, 5, 0, 2, 1, 0, 0] = 18) := by decide +kernel

/-- The tree consists of seven values, and takes seven calls to read. -/
example (t : Bytes) : Values.nodes demoProgram.kind 3 .tree demoTreeNew = 7 ∧
    (demoProgram.counted .default demoImpls 3 .tree).dec.steps ([2, 1, 2, 2, 0, 5, 0, 2, 1, 0] ++ t) = 7 := by
  have e : Values.nodes demoProgram.kind 3 .tree demoTreeNew = 7 := by decide +kernel
  refine ⟨e, ?_⟩
  rw [← e]
  exact (C131_exact_program_partial .default demoProgram demoImpls demoImpls_trans (demoProgram_readable _ (.inr rfl) rfl) 3 .tree).dec
    demoTreeNew _ demoTreeNew_valid rfl t

/-- The same tree at revision 1 takes a call less: there is no label to read. -/
example : ((demoProgram.counted .default demoImpls 3 .tree).dec.steps [2, 1, 2, 2, 0, 5, 0, 2, 1, 0] = 7) ∧
    ((demoProgram.counted .default demoImpls 3 .tree).dec.steps [1, 1, 2, 1, 0, 5, 1, 1, 0] = 6) ∧
    ((demoProgram.counted .default demoImpls 3 .tree).skip.steps [1, 1, 2, 1, 0, 5, 1, 1, 0] = 6) ∧
    ((demoProgram.counted .default demoImpls 3 .tree).skipS.steps [1, 1, 2, 1, 0, 5, 1, 1, 0] = 6) := by decide +kernel

/-- The document is optimised: skipping any is one call. -/
example (n : Nat) (s : Bytes) : (demoProgram.counted .default demoImpls n .doc).skip.steps s = 1 :=
  (C131_skip_optimised .default demoProgram demoImpls n .doc (fun e he => by cases List.mem_singleton.1 he; rfl) (fun _ => nofun) s).1

end Revision
