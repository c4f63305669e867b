import Verif.Proofs.Write
import Verif.Props.Value

/-! # C106, C107: every value of a program can be written -/

namespace Revision

variable {ι : Type} [DecidableEq ι]

/-- Serialising a value of any type of a program, however deep it nests, succeeds, or is refused with the
serialisation error; it does not panic and fails in no other way. -/
theorem C107_written (cfg : Cfg) (P : Program ι) (I : Impls P.kind) (hP : P.Complete true) (n : Nat) (i : ι)
    (v : Values P.kind n i) (hv : P.IsValue I n i v) :
    (∃ b, (P.codec cfg I n i).enc v = .ok b) ∨ (P.codec cfg I n i).enc v = .err .serialize := by
  rcases Program.written cfg P I hP (fun _ _ => rfl) n i v hv with h | h
  · exact .inl h
  · exact .inr h.2

/-- It always succeeds if no type is written in an optimised format. -/
theorem C107_legacy (cfg : Cfg) (P : Program ι) (I : Impls P.kind) (hP : P.Complete false) (hL : P.WritesLegacy) (n : Nat)
    (i : ι) (v : Values P.kind n i) (hv : P.IsValue I n i v) : ∃ b, (P.codec cfg I n i).enc v = .ok b := by
  rcases Program.written cfg P I hP (fun i h => by rw [hL i] at h; cases h) n i v hv with h | h
  · exact h
  · cases h.1

/-- Whatever was read, of whichever revision, can be written in the current format, and what is read then is the
same.  Missing from the full property: optimised formats, which refuse what takes 4 GiB, and what
`C106_value_round_trip_partial` misses. -/
theorem C106_upgrade_partial (cfg : Cfg) (P : Program ι) (I : Impls P.kind) (hr : I.Roomy)
    (htrans : ∀ n t, Std.TransCmp (I.cmp n t)) (hT : P.Typed I) (hC : P.Complete false) (hL : P.WritesLegacy)
    (hP : P.Readable cfg P.current) (n : Nat) (i : ι) (s : Bytes) (v : Values P.kind n i) (r : Bytes)
    (hs : (P.codec cfg I n i).dec s = .ok (v, r)) :
    ∃ b, (P.codec cfg I n i).enc v = .ok b ∧ ∀ t, (P.codec cfg I n i).dec (b ++ t) = .ok (v, t) := by
  have hv := C106_read_is_value cfg P I hr htrans hT n i s v r hs
  obtain ⟨b, hb⟩ := C107_legacy cfg P I hC hL n i v hv
  exact ⟨b, hb, fun t =>
    (C106_value_round_trip_partial cfg P I hr htrans hP (P.writable_of_legacy cfg I hL) n i v b hv hb t).1⟩

/-! ### The demonstration -/

theorem demoProgram_complete (big : Bool) : demoProgram.Complete big where
  history i := by cases i <;> exact ⟨by decide, by decide, by decide⟩
  body i := by
    cases i with
    | tree => exact ((demoProgram_readable demoProgram.current (.inr rfl) rfl).body .tree).1
    | doc => trivial

/-- Every tree and every document can be written, or is refused. -/
example (n : Nat) (i : DemoType) (v : Values demoProgram.kind n i) (hv : demoProgram.IsValue roomyImpls n i v) :
    (demoProgram.codec .default roomyImpls n i).enc v ≠ .panic := by
  rcases C107_written .default demoProgram roomyImpls (demoProgram_complete true) n i v hv with ⟨b, h⟩ | h <;>
    rw [h] <;> simp

/-- `Tree` by itself. -/
def treeProgram : Program Unit where
  kind _ := .enum
  history _ := [⟨1, false, false⟩, ⟨2, false, false⟩]
  body _ := .enum [
    ⟨"Leaf", {}, [⟨"value", {}, .int .u32, fun _ _ => .ok (0 : BitVec 32), fun _ _ _ v => .ok v⟩,
      ⟨"label", { start := some 2 }, .string, fun _ _ => .ok "", fun _ _ _ v => .ok v⟩], fun _ _ _ => .panic⟩,
    ⟨"Node", {}, [⟨"field_0", {}, .vec (.ext ()), fun _ _ => .ok ([] : List _), fun _ _ _ v => .ok v⟩],
      fun _ _ _ => .panic⟩]

def treeImpls : Impls treeProgram.kind where
  cap := fun t k => decide (k * t.elemBytes < 2 ^ 64)
  cmp := fun _ _ _ _ => .eq
  eq := fun _ _ _ _ => true

theorem treeProgram_readable : treeProgram.Readable .default treeProgram.current where
  history i := by cases i; exact ⟨by decide, by decide, by decide⟩
  lower i := by cases i; decide
  upper i := by cases i; decide
  body i := by
    cases i
    have hlt : ∀ n d, List.lookup n [("Node", 1), ("Leaf", 0)] = some d → d < 2 ^ 32 := by
      intro n d h
      have := mem_of_lookup_eq_some _ _ _ h
      simp only [List.mem_cons, Prod.mk.injEq, List.not_mem_nil, or_false] at this
      omega
    refine ⟨⟨by unfold DistinctVariants; decide, ⟨[("Node", 1), ("Leaf", 0)], rfl, hlt⟩, fun h => (by cases h)⟩,
      fun h _ _ _ _ _ => (by cases h), fun _ => forall_mem_pair (fun _ => ?_) (fun _ => ?_), fun _ v _ f _ => Or.inl rfl⟩ <;>
      (unfold DistinctFieldNames; decide)

theorem treeProgram_complete : treeProgram.Complete false where
  history i := by cases i; exact ⟨by decide, by decide, by decide⟩
  body _ := (treeProgram_readable.body ()).1

theorem treeProgram_typed : treeProgram.Typed treeImpls where
  history i := by cases i; exact ⟨by decide, by decide, by decide⟩
  body n i := by
    cases i
    refine ⟨forall_mem_pair (forall_mem_pair ?_ ?_) (forall_mem_pair ?_ ?_), forall_mem_pair (fun h => by cases h)
      (fun h => by cases h), forall_mem_pair (forall_mem_pair ?_ ?_) (List.forall_mem_singleton.2 ?_),
      forall_mem_pair (fun _ _ _ h => by cases h) (fun _ _ _ h => by cases h)⟩
    · unfold DistinctFieldNames; decide
    · unfold DistinctFieldNames; decide
    · unfold DistinctFieldNames; decide
    · unfold DistinctFieldNames; decide
    · exact ⟨fun _ a h => by cases h; exact ⟨_, rfl, trivial, trivial⟩, fun _ _ _ _ _ h h' => by cases h'; exact h⟩
    · exact ⟨fun _ a h => by cases h; exact ⟨_, rfl, trivial, (by decide : 0 < 2 ^ 64), rfl⟩,
        fun _ _ _ _ _ h h' => by cases h'; exact h⟩
    · exact ⟨fun _ a h => by
        cases h; exact ⟨_, rfl, fun _ h => (by cases h), ⟨(by decide : 0 < 2 ^ 64), rfl, fun _ h => (by cases h)⟩⟩,
        fun _ _ _ _ _ h h' => by cases h'; exact h⟩

/-- Trees of either revision can be rewritten. -/
example (n : Nat) (s : Bytes) (v : Values treeProgram.kind n ()) (r : Bytes)
    (hs : (treeProgram.codec .default treeImpls n ()).dec s = .ok (v, r)) :
    ∃ b, (treeProgram.codec .default treeImpls n ()).enc v = .ok b ∧
      ∀ t, (treeProgram.codec .default treeImpls n ()).dec (b ++ t) = .ok (v, t) :=
  C106_upgrade_partial .default treeProgram treeImpls (fun _ _ => rfl) (fun _ _ => constEq_trans) treeProgram_typed
    treeProgram_complete (fun _ => rfl) treeProgram_readable n () s v r hs

end Revision
