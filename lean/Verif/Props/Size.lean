import Verif.Proofs.Size
import Verif.Props.Write

/-! # C112, C106: how many bytes a value takes, and which values are small enough for every format -/

namespace Revision

variable {ι : Type}

/-- A value of a built-in type takes no more bytes than the bound, and is always written.  The types it is built from
may include others, of which the same is known. -/
theorem C112_type (cfg : Cfg) (E : Env ι) (S : (i : ι) → E.X i → Nat)
    (hS : ∀ i x, (E.extC i).valid x → ∃ b, (E.extC i).enc x = .ok b ∧ b.length ≤ S i x) (t : Ty ι) (v : t.denote E.X)
    (hv : t.WF E v) : ∃ b, (t.codec cfg E).enc v = .ok b ∧ b.length ≤ t.most S v :=
  t.gives (lim := false) (G := fun i => (E.extC i).valid) cfg (fun i x hx _ => hS i x hx) v ((t.wf_only E v).2 hv)
    (fun h => nomatch h)

variable [DecidableEq ι]

/-- A value of any type of a program whose bound is under 4 GiB is written, in any format, in no more bytes than the
bound. -/
theorem C112_written (cfg : Cfg) (P : Program ι) (I : Impls P.kind)
    (F : (n : Nat) → (i : ι) → Values P.kind (n + 1) i → Nat) (hP : P.Bounded true F) (n : Nat) (i : ι)
    (v : Values P.kind n i) (hv : P.IsValue I n i v) (hs : P.most F n i v < 2 ^ 32) :
    ∃ b, (P.codec cfg I n i).enc v = .ok b ∧ b.length ≤ P.most F n i v :=
  P.gives cfg I hP (fun _ _ => rfl) n i v hv fun _ => hs

/-- If no type is written in an optimised format then so is every value. -/
theorem C112_legacy (cfg : Cfg) (P : Program ι) (I : Impls P.kind)
    (F : (n : Nat) → (i : ι) → Values P.kind (n + 1) i → Nat) (hP : P.Bounded false F) (hL : P.WritesLegacy) (n : Nat)
    (i : ι) (v : Values P.kind n i) (hv : P.IsValue I n i v) :
    ∃ b, (P.codec cfg I n i).enc v = .ok b ∧ b.length ≤ P.most F n i v :=
  P.gives cfg I hP (fun i h => by rw [hL i] at h; cases h) n i v hv fun h => nomatch h

/-- What is refused is too big. -/
theorem C112_refused (cfg : Cfg) (P : Program ι) (I : Impls P.kind)
    (F : (n : Nat) → (i : ι) → Values P.kind (n + 1) i → Nat) (hP : P.Bounded true F) (n : Nat) (i : ι)
    (v : Values P.kind n i) (hv : P.IsValue I n i v) (e : Err) (he : (P.codec cfg I n i).enc v = .err e) :
    2 ^ 32 ≤ P.most F n i v := by
  refine Nat.le_of_not_lt fun hs => ?_
  obtain ⟨b, hb, _⟩ := C112_written cfg P I F hP n i v hv hs
  rw [hb] at he
  cases he

/-- Whatever was read, of whichever revision, can be written in the current format if it is small enough, and what is
read then is the same.  Missing from the full property: what `C106_value_round_trip_partial` misses. -/
theorem C106_upgrade_small_partial (cfg : Cfg) (P : Program ι) (I : Impls P.kind) (hr : I.Roomy)
    (htrans : ∀ n t, Std.TransCmp (I.cmp n t)) (hT : P.Typed I)
    (F : (n : Nat) → (i : ι) → Values P.kind (n + 1) i → Nat) (hB : P.Bounded true F)
    (hP : P.Readable cfg P.current) (hW : P.Writable cfg I) (n : Nat) (i : ι) (s : Bytes) (v : Values P.kind n i)
    (r : Bytes) (hs : (P.codec cfg I n i).dec s = .ok (v, r)) (hsmall : P.most F n i v < 2 ^ 32) :
    ∃ b, (P.codec cfg I n i).enc v = .ok b ∧ b.length ≤ P.most F n i v ∧
      ∀ t, (P.codec cfg I n i).dec (b ++ t) = .ok (v, t) := by
  have hv := C106_read_is_value cfg P I hr htrans hT n i s v r hs
  obtain ⟨b, hb, hl⟩ := C112_written cfg P I F hB n i v hv hsmall
  exact ⟨b, hb, hl, fun t => (C106_value_round_trip_partial cfg P I hr htrans hP hW n i v b hv hb t).1⟩

/-! ### The demonstration -/

/-- A map from strings to numbers takes at most 9 bytes, and 14 and the length of the key for each entry. -/
example (cfg : Cfg) (E : Env Empty) (l : List (String × BitVec 32))
    (hl : l.Pairwise fun a b => E.cmp .string a.1 b.1 = .lt) :
    ∃ b, ((Ty.btreeMap .string (.int .u32)).codec cfg E).enc l = .ok b ∧
      b.length ≤ 9 + (l.map fun e => (9 + e.1.toByteArray.size) + 5).sum :=
  C112_type cfg E nofun nofun (.btreeMap .string (.int .u32)) l ⟨fun _ _ => ⟨trivial, trivial⟩, hl⟩

theorem demoProgram_bounded (lim : Bool) : demoProgram.Bounded lim (fun _ _ _ => 0) where
  history := (demoProgram_complete lim).history
  accepted i := by
    cases i with
    | tree => exact (demoProgram_complete lim).body .tree
    | doc => trivial
  foreign n i := by cases i <;> trivial

/-- A tree with two leaves takes 72 bytes at most; it takes 10. -/
example : demoProgram.most (fun _ _ _ => 0) 3 .tree demoTreeNew = 72 ∧
    (demoProgram.codec .default roomyImpls 3 .tree).enc demoTreeNew = .ok [2, 1, 2, 2, 0, 5, 0, 2, 1, 0] :=
  ⟨by decide +kernel, rfl⟩

example : ∃ b, (demoProgram.codec .default roomyImpls 3 .tree).enc demoTreeNew = .ok b ∧ b.length ≤ 72 :=
  C112_written .default demoProgram roomyImpls _ (demoProgram_bounded true) 3 .tree demoTreeNew
    (C106_read_is_value .default demoProgram roomyImpls roomyImpls_roomy roomyImpls_trans demoProgram_typed 3 .tree _ _ []
      (demoTree_read [])) (by decide +kernel)

/-- Documents, which have an optimised format, can be rewritten if they are small enough. -/
example (n : Nat) (s : Bytes) (v : Values demoProgram.kind n .doc) (r : Bytes)
    (hs : (demoProgram.codec .default roomyImpls n .doc).dec s = .ok (v, r))
    (hsmall : demoProgram.most (fun _ _ _ => 0) n .doc v < 2 ^ 32) :
    ∃ b, (demoProgram.codec .default roomyImpls n .doc).enc v = .ok b ∧
      b.length ≤ demoProgram.most (fun _ _ _ => 0) n .doc v ∧
      ∀ t, (demoProgram.codec .default roomyImpls n .doc).dec (b ++ t) = .ok (v, t) :=
  C106_upgrade_small_partial .default demoProgram roomyImpls roomyImpls_roomy roomyImpls_trans demoProgram_typed _
    (demoProgram_bounded true) (demoProgram_readable _ (.inr rfl) rfl) demoProgram_writable n .doc s v r hs hsmall

/-- Trees by themselves have no limit. -/
example (n : Nat) (v : Values treeProgram.kind n ()) (hv : treeProgram.IsValue treeImpls n () v) :
    ∃ b, (treeProgram.codec .default treeImpls n ()).enc v = .ok b ∧
      b.length ≤ treeProgram.most (fun _ _ _ => 0) n () v :=
  C112_legacy .default treeProgram treeImpls _
    ⟨treeProgram_complete.history, treeProgram_complete.body, fun _ i => by cases i; trivial⟩ (fun _ => rfl) n () v hv

end Revision
