import Verif.Proofs.Exchange
import Verif.Props.Program

/-! # C105: any two versions of a program exchange data -/

namespace Revision

/-- The writer and the reader are versions of one program, each with any revision of each type: the reader may know
later revisions of some types and only earlier ones of others.  What it gets is the writer's value with every derived
value in it migrated to the reader's revisions; it gets nothing if there is a derived value of a later revision
in the data or if a migration is refused.  Skipping never ends anywhere but after the data; it fails only if some
type of the writer is newer than the reader's.  Missing from the full property: what `C74_nested_migration_partial`
misses. -/
theorem C105_exchange_partial {ι : Type} [DecidableEq ι] (cfg : Cfg) (P : Program ι) (I I' : Impls P.kind)
    (s r : ι → Nat) (hP : P.Exchanges cfg s r) (hcap : ∀ t k, I.cap t k = true → I'.cap t k = true)
    (n m : Nat) (hnm : n ≤ m) (i : ι) (v : Values P.kind n i) (b : Bytes)
    (hv : ((P.asOf s).codec cfg I n i).valid v)
    (hb : ((P.asOf s).codec cfg I n i).enc v = .ok b) (t : Bytes) :
    (((P.asOf r).codec cfg I' m i).dec (b ++ t)).ok? = (P.migrateTo cfg I I' s r n m i v).map (·, t) ∧
      (((P.asOf r).codec cfg I' m i).check (b ++ t)).ok? =
        (P.migrateTo cfg I I' s r n m i v).map (fun _ => ((), t)) ∧
      (((P.asOf r).codec cfg I' m i).skip (b ++ t) = .ok ((), t) ∨
        (∃ j, P.Newer s r j) ∧ (((P.asOf r).codec cfg I' m i).skip (b ++ t)).ok? = none) ∧
      (((P.asOf r).codec cfg I' m i).skipS (b ++ t) = .ok ((), t) ∨
        (∃ j, P.Newer s r j) ∧ (((P.asOf r).codec cfg I' m i).skipS (b ++ t)).ok? = none) := by
  by_cases h : ∃ j, P.Newer s r j
  · have key := P.exchanges (w := true) cfg I I' s r hP hcap (fun _ _ => rfl) n m hnm i
    exact ⟨key.dec v b hv hb t, key.check v b hv hb t,
      (key.skip v b hv hb t).imp id fun e => ⟨h, Res.ok?_eq_none e.2⟩,
      (key.skipS v b hv hb t).imp id fun e => ⟨h, Res.ok?_eq_none e.2⟩⟩
  · have key := P.exchanges (w := false) cfg I I' s r hP hcap (fun j hj => absurd ⟨j, hj⟩ h) n m hnm i
    exact ⟨key.dec v b hv hb t, key.check v b hv hb t, .inl (key.skip v b hv hb t).strict,
      .inl (key.skipS v b hv hb t).strict⟩

/-- Data in which there is, however deep, a value of a type of a revision later than the reader's is refused.  Missing
from the full property: what `C105_exchange_partial` misses. -/
theorem C105_newer_inside_partial {ι : Type} [DecidableEq ι] (cfg : Cfg) (P : Program ι) (I I' : Impls P.kind)
    (s r : ι → Nat) (hP : P.Exchanges cfg s r) (hcap : ∀ t k, I.cap t k = true → I'.cap t k = true)
    (n m : Nat) (hnm : n ≤ m) (i j : ι) (hj : P.Newer s r j) (v : Values P.kind n i) (hw : P.Within j n i v) (b : Bytes)
    (hv : ((P.asOf s).codec cfg I n i).valid v)
    (hb : ((P.asOf s).codec cfg I n i).enc v = .ok b) (t : Bytes) :
    (((P.asOf r).codec cfg I' m i).dec (b ++ t)).ok? = none ∧
      (((P.asOf r).codec cfg I' m i).check (b ++ t)).ok? = none := by
  have h := C105_exchange_partial cfg P I I' s r hP hcap n m hnm i v b hv hb t
  rw [P.migrateTo_none cfg I I' s r hj n m i v hw] at h
  exact ⟨h.1, h.2.1⟩

/-- Data of a type of a revision later than the reader's is refused with an error, by reading and by skipping. -/
theorem C105_newer_refused {ι : Type} [DecidableEq ι] (cfg : Cfg) (P : Program ι) (I I' : Impls P.kind)
    (s r : ι → Nat) (hh : ∀ i, ValidHistory (P.history i)) (hs : ∀ i, 1 ≤ s i ∧ s i ≤ (P.history i).length)
    (hr : ∀ i, 1 ≤ r i) (n m : Nat) (hm : 0 < m) (i : ι) (hi : P.Newer s r i) (v : Values P.kind n i) (b : Bytes)
    (hb : ((P.asOf s).codec cfg I n i).enc v = .ok b) (t : Bytes) :
    ((P.asOf r).codec cfg I' m i).dec (b ++ t) = .err .deserialize ∧
      ((P.asOf r).codec cfg I' m i).skip (b ++ t) = .err .deserialize ∧
      ((P.asOf r).codec cfg I' m i).skipS (b ++ t) = .err .deserialize ∧
      ((P.asOf r).codec cfg I' m i).check (b ++ t) = .err .deserialize :=
  P.newer_refused cfg I I' s r hh hs hr n m hm i hi v b hb t

/-! ### Two versions, each ahead of the other -/

/-- The types of the demonstration. -/
inductive PartOrWhole where
  | part
  | whole
  deriving DecidableEq

/-- ```
#[revisioned(revision(1), revision(2))]
struct Part { x: u32, #[revision(start = 2)] y: u32 }
#[revisioned(revision(1), revision(2))]
struct Whole { parts: Vec<Part>, #[revision(start = 2)] title: String }
``` -/
def partsProgram : Program PartOrWhole where
  kind _ := .struct
  history _ := [⟨1, false, false⟩, ⟨2, false, false⟩]
  body
    | .part => .struct [
        ⟨"x", {}, .int .u32, fun _ _ => .ok (0 : BitVec 32), fun _ _ _ v => .ok v⟩,
        ⟨"y", { start := some 2 }, .int .u32, fun _ _ => .ok (0 : BitVec 32), fun _ _ _ v => .ok v⟩]
    | .whole => .struct [
        ⟨"parts", {}, .vec (.ext .part), fun _ _ => .ok ([] : List _), fun _ _ _ v => .ok v⟩,
        ⟨"title", { start := some 2 }, .string, fun _ _ => .ok "", fun _ _ _ v => .ok v⟩]

def partsImpls : Impls partsProgram.kind where
  cap := fun _ n => decide (n ≤ 2 ^ 40)
  cmp := fun _ _ _ _ => .eq
  eq := fun _ _ _ _ => true

/-- `Part` is at revision 2 and `Whole` still at 1. -/
def partsAhead : PartOrWhole → Nat | .part => 2 | .whole => 1

/-- `Whole` is at revision 2 and `Part` still at 1. -/
def wholeAhead : PartOrWhole → Nat | .part => 1 | .whole => 2

theorem partsProgram_exchanges : partsProgram.Exchanges .default partsAhead wholeAhead where
  history i := by cases i <;> exact ⟨by decide, by decide, by decide⟩
  writer i := by cases i <;> decide
  reader i := by cases i <;> decide
  body i h := by
    cases i with
    | part => exact absurd h (by decide)
    | whole =>
      exact ⟨by unfold DistinctFieldNames; decide, fun h _ _ _ _ => (by cases h), fun _ _ _ => Or.inl rfl⟩

/-- `Whole { parts: [] }` at revision 1. -/
def noParts : Values partsProgram.kind 2 .whole := ([⟨.vec (.ext .part), ([] : List (List _))⟩] : List _)

/-- `Whole { parts: [Part { x: 5, y: 6 }] }`, the part at revision 2. -/
def onePart : Values partsProgram.kind 2 .whole :=
  ([⟨.vec (.ext .part), ([[⟨.int .u32, (5 : BitVec 32)⟩, ⟨.int .u32, (6 : BitVec 32)⟩]] : List (List _))⟩] : List _)

theorem noParts_valid : ((partsProgram.asOf partsAhead).codec .default partsImpls 2 .whole).valid noParts :=
  ⟨⟨_, rfl, by decide, fun h => absurd rfl h, fun a ha => by cases ha⟩, rfl⟩

theorem onePart_valid : ((partsProgram.asOf partsAhead).codec .default partsImpls 2 .whole).valid onePart :=
  ⟨⟨_, rfl, by decide, fun _ => rfl, List.forall_mem_singleton.2 ⟨⟨_, rfl, trivial⟩, ⟨_, rfl, trivial⟩, rfl⟩⟩, rfl⟩

example : ((partsProgram.asOf partsAhead).codec .default partsImpls 2 .whole).enc noParts = .ok [1, 0] := rfl

example : ((partsProgram.asOf partsAhead).codec .default partsImpls 2 .whole).enc onePart = .ok [1, 1, 2, 5, 6] := rfl

/-- Without parts the data is read, and the title added. -/
example (t : Bytes) : (((partsProgram.asOf wholeAhead).codec .default partsImpls 2 .whole).dec ([1, 0] ++ t)).ok? =
    some (([⟨.vec (.ext .part), ([] : List (List _))⟩, ⟨.string, ""⟩] : List _), t) :=
  (C105_exchange_partial .default partsProgram partsImpls partsImpls partsAhead wholeAhead partsProgram_exchanges
    (fun _ _ h => h) 2 2 (Nat.le_refl 2) .whole noParts _ noParts_valid rfl t).1

/-- With a part of the later revision in it the data is refused. -/
example (t : Bytes) :
    (((partsProgram.asOf wholeAhead).codec .default partsImpls 2 .whole).dec ([1, 1, 2, 5, 6] ++ t)).ok? = none :=
  (C105_newer_inside_partial .default partsProgram partsImpls partsImpls partsAhead wholeAhead partsProgram_exchanges
    (fun _ _ h => h) 2 2 (Nat.le_refl 2) .whole .part ⟨rfl, by decide⟩ onePart
    (.inr ⟨_, List.mem_singleton.2 rfl, _, List.mem_singleton.2 rfl, .inl rfl⟩) _ onePart_valid rfl t).1

/-- So is the part alone. -/
example (t : Bytes) :
    ((partsProgram.asOf wholeAhead).codec .default partsImpls 1 .part).skip ([2, 5, 6] ++ t) = .err .deserialize :=
  (C105_newer_refused .default partsProgram partsImpls partsImpls partsAhead wholeAhead
    partsProgram_exchanges.history partsProgram_exchanges.writer (fun i => (partsProgram_exchanges.reader i).1) 1 1
    (by decide) .part ⟨rfl, by decide⟩ ([⟨.int .u32, (5 : BitVec 32)⟩, ⟨.int .u32, (6 : BitVec 32)⟩] : List _) _ rfl t).2.1

/-- In an optimised envelope the newer values are skipped without being looked at: `Doc` with the trees of revision 2,
read by a program that knows revision 1 only. -/
example (t : Bytes) : ((demoProgram.asOf demoOld).codec .default demoImpls 1 .doc).skip
    ([1, 9, 0, 0, 0, 1, 100, 0, 1, 2, 0, 5, 0, 0] ++ t) = .ok ((), t) := rfl

end Revision
