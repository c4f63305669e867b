import Verif.Proofs.ValueProgram
import Verif.Proofs.ValueBackProgram
import Verif.Props.Program

/-! # C106: what a program reads is a value, and values can be written again -/

namespace Revision

variable {ι : Type} [DecidableEq ι]

/-- Whatever a program returns when it reads any bytes as any of its types, written at any revision or not written
by anyone, is a value of that type as it is declared now: a value for every field of the current revision and for no
other, in a variant of the current revision, whatever the fields nest. -/
theorem C106_read_is_value (cfg : Cfg) (P : Program ι) (I : Impls P.kind) (hr : I.Roomy)
    (htrans : ∀ n t, Std.TransCmp (I.cmp n t)) (hP : P.Typed I) (n : Nat) (i : ι) (s : Bytes)
    (v : Values P.kind n i) (t : Bytes) (h : (P.codec cfg I n i).dec s = .ok (v, t)) : P.IsValue I n i v :=
  P.sound cfg I hr htrans hP n i s v t h

/-- Every value of a program that can be serialised at all is read back, skipped and checked.  Nothing is assumed
of the value but that it has the fields declared.  Missing from the full property: the declarations with which the
encoding loses values, which `Program.Readable` and `Program.Writable` exclude (`C53_fixed_size_false`,
`C55_specialised_false`, and `C40` for the order of hash maps). -/
theorem C106_value_round_trip_partial (cfg : Cfg) (P : Program ι) (I : Impls P.kind) (hr : I.Roomy)
    (htrans : ∀ n t, Std.TransCmp (I.cmp n t)) (hP : P.Readable cfg P.current) (hW : P.Writable cfg I) (n : Nat) (i : ι)
    (v : Values P.kind n i) (b : Bytes) (hv : P.IsValue I n i v) (hb : (P.codec cfg I n i).enc v = .ok b) (t : Bytes) :
    (P.codec cfg I n i).dec (b ++ t) = .ok (v, t) ∧
      (P.codec cfg I n i).skip (b ++ t) = .ok ((), t) ∧
      (P.codec cfg I n i).skipS (b ++ t) = .ok ((), t) ∧
      (P.codec cfg I n i).check (b ++ t) = .ok ((), t) :=
  C73_round_trip_partial cfg P I htrans hP n i v b (P.valid_back cfg I hr hP hW n i v b hv hb) hb t

/-- Data read by a program, of whatever revision, can be written again in the current format without loss: the new
bytes are read as the value that was read from the old ones.  Missing from the full property: what
`C106_value_round_trip_partial` misses. -/
theorem C106_rewrite_partial (cfg : Cfg) (P : Program ι) (I : Impls P.kind) (hr : I.Roomy)
    (htrans : ∀ n t, Std.TransCmp (I.cmp n t)) (hT : P.Typed I) (hP : P.Readable cfg P.current)
    (hW : P.Writable cfg I) (n : Nat) (i : ι) (s : Bytes) (v : Values P.kind n i) (r : Bytes)
    (hs : (P.codec cfg I n i).dec s = .ok (v, r)) (b : Bytes) (hb : (P.codec cfg I n i).enc v = .ok b) (t : Bytes) :
    (P.codec cfg I n i).dec (b ++ t) = .ok (v, t) :=
  (C106_value_round_trip_partial cfg P I hr htrans hP hW n i v b
    (C106_read_is_value cfg P I hr htrans hT n i s v r hs) hb t).1

/-! ### The demonstration -/

/-- The demonstration on a machine with as much memory as it can address. -/
def roomyImpls : Impls demoProgram.kind where
  cap := fun t k => decide (k * t.elemBytes < 2 ^ 64)
  cmp := demoProgramCmp
  eq := fun _ _ _ _ => true

theorem roomyImpls_roomy : roomyImpls.Roomy := fun _ _ => rfl

theorem roomyImpls_trans (n : Nat) (t : Ty DemoType) : Std.TransCmp (roomyImpls.cmp n t) := demoImpls_trans n t

theorem forall_mem_triple {α : Type} {p : α → Prop} {a b c : α} (ha : p a) (hb : p b) (hc : p c) :
    ∀ x ∈ [a, b, c], p x := by
  intro x hx
  rcases List.mem_cons.1 hx with rfl | hx
  · exact ha
  · exact forall_mem_pair hb hc x hx

theorem demoProgram_typed : demoProgram.Typed roomyImpls where
  history i := by cases i <;> exact ⟨by decide, by decide, by decide⟩
  body n i := by
    cases i with
    | tree =>
      refine ⟨forall_mem_pair (forall_mem_pair ?_ ?_) (forall_mem_pair ?_ ?_), forall_mem_pair (fun h => by cases h)
        (fun h => by cases h), forall_mem_pair (forall_mem_pair ?_ ?_) (List.forall_mem_singleton.2 ?_),
        forall_mem_pair (fun _ _ _ h => by cases h) (fun _ _ _ h => by cases h)⟩
      · unfold DistinctFieldNames; decide
      · unfold DistinctFieldNames; decide
      · unfold DistinctFieldNames; decide
      · unfold DistinctFieldNames; decide
      · exact ⟨fun _ a h => by cases h; exact ⟨_, rfl, trivial, trivial⟩, fun _ _ _ _ _ h h' => by cases h'; exact h⟩
      · exact ⟨fun _ a h => by cases h; exact ⟨_, rfl, trivial, (by decide : 0 < 2 ^ 64), rfl⟩,
          fun _ _ _ _ _ h h' => by cases h'; exact h⟩
      · exact ⟨fun _ a h => by
          cases h; exact ⟨_, rfl, fun _ h => (by cases h), ⟨(by decide : 0 < 2 ^ 64), rfl, fun _ h => (by cases h)⟩⟩,
          fun _ _ _ _ _ h h' => by cases h'; exact h⟩
    | doc =>
      refine ⟨List.forall_mem_singleton.2 (by unfold DistinctFieldNames; decide), forall_mem_triple ?_ ?_ ?_⟩
      · exact ⟨fun _ a h => by cases h; exact ⟨_, rfl, trivial, (by decide : 0 < 2 ^ 64), rfl⟩,
          fun _ _ _ _ _ h h' => by cases h'; exact h⟩
      · exact ⟨fun _ a h => by
          cases h; exact ⟨_, rfl, fun _ h => (by cases h), ⟨(by decide : 0 < 2 ^ 64), rfl, fun _ h => (by cases h)⟩⟩,
          fun _ _ _ _ _ h h' => by cases h'; exact h⟩
      · exact ⟨fun _ a h => by cases h; exact ⟨_, rfl, fun _ h => (by cases h), fun _ h => (by cases h)⟩,
          fun _ _ _ _ _ h h' => by cases h'; exact h⟩

theorem demoProgram_writable : demoProgram.Writable .default roomyImpls := by
  intro n i
  cases i with
  | tree => exact fun h => by cases h
  | doc => exact fun _ => forall_mem_triple (fun h => by cases h) (fun _ => rfl) (fun h => by cases h)

/-- Whatever bytes are read as a document, the document is read back from the bytes it is then written to. -/
example (n : Nat) (s : Bytes) (v : Values demoProgram.kind n .doc) (r b t : Bytes)
    (hs : (demoProgram.codec .default roomyImpls n .doc).dec s = .ok (v, r))
    (hb : (demoProgram.codec .default roomyImpls n .doc).enc v = .ok b) :
    (demoProgram.codec .default roomyImpls n .doc).dec (b ++ t) = .ok (v, t) :=
  C106_rewrite_partial .default demoProgram roomyImpls roomyImpls_roomy roomyImpls_trans demoProgram_typed
    (demoProgram_readable _ (.inr rfl) rfl) demoProgram_writable n .doc s v r hs b hb t

/-- A tree of revision 1 … -/
theorem demoTree_read (t : Bytes) : (demoProgram.codec .default roomyImpls 3 .tree).dec
    ([1, 1, 2, 1, 0, 5, 1, 1, 0] ++ t) = .ok (demoTreeNew, t) := rfl

/-- … is read as a tree of revision 2, with labels, … -/
example : demoProgram.IsValue roomyImpls 3 .tree demoTreeNew :=
  C106_read_is_value .default demoProgram roomyImpls roomyImpls_roomy roomyImpls_trans demoProgram_typed 3 .tree _ _ []
    (demoTree_read [])

/-- … and can be written as such. -/
example (t : Bytes) : (demoProgram.codec .default roomyImpls 3 .tree).dec ([2, 1, 2, 2, 0, 5, 0, 2, 1, 0] ++ t) =
    .ok (demoTreeNew, t) :=
  C106_rewrite_partial .default demoProgram roomyImpls roomyImpls_roomy roomyImpls_trans demoProgram_typed
    (demoProgram_readable _ (.inr rfl) rfl) demoProgram_writable 3 .tree _ _ [] (demoTree_read []) _ rfl t

/-- Without its label the tree is not a value of the current program. -/
example : ¬ demoProgram.IsValue roomyImpls 3 .tree demoTree := by
  rintro ⟨v, hv, _, hn, h⟩
  rcases List.mem_cons.1 hv with rfl | hv
  · exact absurd hn (by decide)
  rw [List.mem_singleton.1 hv] at h
  cases h with
  | cons h _ =>
    obtain ⟨a, ha, hw, _⟩ := h
    cases ha
    obtain ⟨v, hv, _, hn, h⟩ := hw _ (.head _)
    rcases List.mem_cons.1 hv with rfl | hv
    · cases h with
      | cons _ h => cases h
    · rw [List.mem_singleton.1 hv] at hn
      exact absurd hn (by decide)

example (t : Bytes) : (demoProgram.codec .default roomyImpls 3 .tree).dec ([2, 1, 2, 2, 0, 5, 0, 2, 1, 0] ++ t) =
    .ok (demoTreeNew, t) :=
  (C106_value_round_trip_partial .default demoProgram roomyImpls roomyImpls_roomy roomyImpls_trans
    (demoProgram_readable _ (.inr rfl) rfl) demoProgram_writable 3 .tree demoTreeNew _
    (C106_read_is_value .default demoProgram roomyImpls roomyImpls_roomy roomyImpls_trans demoProgram_typed 3 .tree _ _ []
      (demoTree_read [])) rfl t).1

end Revision
