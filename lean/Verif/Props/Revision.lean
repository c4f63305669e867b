import Verif.Proofs.Revision
import Verif.Props.Exchange

/-! # C132: the age of data can be told from its first bytes -/

namespace Revision

/-- Whatever a derived type writes begins with the revision the type reports, which is at least 1; reading a `u16`
from the data gives that revision back. -/
theorem C132_written {ι : Type} [DecidableEq ι] (cfg : Cfg) (P : Program ι) (I : Impls P.kind) (n : Nat) (i : ι)
    (hi : (P.kind i).derived = true) (hh : ValidHistory (P.history i)) (v : Values P.kind n i) (b : Bytes)
    (hb : (P.codec cfg I n i).enc v = .ok b) :
    1 ≤ P.revision i ∧ P.revision i ≤ 65535 ∧
      ∃ rest, b = encU16 cfg (P.revision i) ++ rest ∧
        ∀ t, readU16 cfg (b ++ t) = .ok (P.revision i, rest ++ t) := by
  cases n with
  | zero => exact nomatch v
  | succ n =>
    obtain ⟨x, rfl⟩ := Body.enc_revision (cfg := cfg) (I := I) (c := P.codec cfg I n) (P.body i) hi hb
    have h1 : P.revision i = (P.history i).length := hh.latest_eq
    have h2 := hh.fits
    have h3 := List.length_pos_iff.2 hh.nonempty
    refine ⟨by omega, by omega, x, rfl, fun t => ?_⟩
    rw [List.append_assoc]
    exact readU16_encU16 cfg (by have h4 := hh.latest_eq; omega) _

/-- Data from which a value is read, and data that is skipped or checked, begins with a revision from 1 to the one
the type reports: nothing with another header is accepted. -/
theorem C132_read {ι : Type} [DecidableEq ι] (cfg : Cfg) (P : Program ι) (I : Impls P.kind) (n : Nat) (i : ι)
    (hi : (P.kind i).derived = true) (hh : ValidHistory (P.history i)) (s : Bytes)
    (h : (∃ x, (P.codec cfg I n i).dec s = .ok x) ∨ (∃ x, (P.codec cfg I n i).skip s = .ok x) ∨
      (∃ x, (P.codec cfg I n i).skipS s = .ok x) ∨ ∃ x, (P.codec cfg I n i).check s = .ok x) :
    ∃ k t, readU16 cfg s = .ok (k, t) ∧ 1 ≤ k ∧ k ≤ P.revision i := by
  cases n with
  | zero => rcases h with ⟨x, h⟩ | ⟨x, h⟩ | ⟨x, h⟩ | ⟨x, h⟩ <;> cases h
  | succ n => exact Body.header hh (P.body i) hi s h

/-- The writer and the reader are versions of one program.  The header of the data, compared with the revision the
type reports to the reader, tells whether the writer's type was older than the reader's, the same or newer. -/
theorem C132_age {ι : Type} [DecidableEq ι] (cfg : Cfg) (P : Program ι) (I : Impls P.kind) (s r : ι → Nat)
    (hh : ∀ i, ValidHistory (P.history i)) (hs : ∀ i, 1 ≤ s i ∧ s i ≤ (P.history i).length)
    (hr : ∀ i, 1 ≤ r i ∧ r i ≤ (P.history i).length) (n : Nat) (i : ι) (hi : (P.kind i).derived = true)
    (v : Values P.kind n i) (b : Bytes) (hb : ((P.asOf s).codec cfg I n i).enc v = .ok b) (t : Bytes) :
    ∃ k rest, readU16 cfg (b ++ t) = .ok (k, rest) ∧
      (k < (P.asOf r).revision i ↔ s i < r i) ∧
      (k = (P.asOf r).revision i ↔ s i = r i) ∧
      ((P.asOf r).revision i < k ↔ r i < s i) := by
  obtain ⟨_, _, x, _, e⟩ := C132_written cfg (P.asOf s) I n i hi ((hh i).take (hs i).1 (hs i).2) v b hb
  refine ⟨_, _, e t, ?_⟩
  rw [Program.asOf_revision hh (hs i), Program.asOf_revision hh (hr i)]
  exact ⟨.rfl, .rfl, .rfl⟩

/-- What is read from older data and written again begins with the revision the type reports: one rewrite brings
a record up to date. -/
theorem C132_rewrite {ι : Type} [DecidableEq ι] (cfg : Cfg) (P : Program ι) (I : Impls P.kind) (n : Nat) (i : ι)
    (hi : (P.kind i).derived = true) (hh : ValidHistory (P.history i)) (s t b : Bytes) (v : Values P.kind n i)
    (hd : (P.codec cfg I n i).dec s = .ok (v, t)) (hb : (P.codec cfg I n i).enc v = .ok b) :
    ∃ k k' u u', readU16 cfg s = .ok (k, u) ∧ readU16 cfg b = .ok (k', u') ∧ k ≤ k' ∧ k' = P.revision i := by
  obtain ⟨k, u, hk, _, hle⟩ := C132_read cfg P I n i hi hh s (.inl ⟨_, hd⟩)
  obtain ⟨_, _, x, _, e⟩ := C132_written cfg P I n i hi hh v b hb
  have e := e []
  rw [List.append_nil] at e
  exact ⟨k, _, u, _, hk, e, hle, rfl⟩

/-- A `Box`, an `Arc` or another transparent wrapper of a derived type is written as the derived type is but reports
revision 1: the header is what the derived type reports, and what the wrapper reports only while the type inside is at
its first revision. -/
theorem C132_box {ι : Type} [DecidableEq ι] (cfg : Cfg) (P : Program ι) (I : Impls P.kind) (n : Nat) (i : ι)
    (hi : (P.kind i).derived = true) (hh : ValidHistory (P.history i)) (v : Values P.kind n i) (b : Bytes)
    (hb : ((Ty.wrap (.ext i)).codec cfg (I.env n (P.codec cfg I n))).enc v = .ok b) (t : Bytes) :
    ∃ k rest, readU16 cfg (b ++ t) = .ok (k, rest) ∧ k = (Ty.ext i).revision P.revision ∧
      (k = (Ty.wrap (.ext i)).revision P.revision ↔ (P.history i).length = 1) := by
  obtain ⟨_, _, x, _, e⟩ := C132_written cfg P I n i hi hh v b hb
  refine ⟨_, _, e t, rfl, ?_⟩
  rw [show P.revision i = (P.history i).length from hh.latest_eq]
  exact .rfl

/-! ### The hypotheses hold for the demonstration -/

/-- `Whole` and `Part` report 2; before `Whole` had a title it reported 1. -/
example : partsProgram.revision .part = 2 ∧ partsProgram.revision .whole = 2 ∧
    (partsProgram.asOf partsAhead).revision .whole = 1 := ⟨rfl, rfl, rfl⟩

example : 1 ≤ partsProgram.revision .part ∧ partsProgram.revision .part ≤ 65535 ∧
    ∃ rest, ([2, 5, 6] : Bytes) = encU16 .default (partsProgram.revision .part) ++ rest ∧
      ∀ t, readU16 .default ([2, 5, 6] ++ t) = .ok (partsProgram.revision .part, rest ++ t) :=
  C132_written .default partsProgram partsImpls 1 .part rfl (partsProgram_exchanges.history .part)
    ([⟨.int .u32, (5 : BitVec 32)⟩, ⟨.int .u32, (6 : BitVec 32)⟩] : List _) _ rfl

example : ∃ k t, readU16 .default [1, 5] = .ok (k, t) ∧ 1 ≤ k ∧ k ≤ partsProgram.revision .part :=
  C132_read .default partsProgram partsImpls 1 .part rfl (partsProgram_exchanges.history .part) [1, 5] (.inl ⟨_, rfl⟩)

/-- Data of a version whose `Whole` was at 1, seen by a version whose `Whole` is at 2. -/
example (t : Bytes) : ∃ k rest, readU16 .default ([1, 0] ++ t) = .ok (k, rest) ∧
    (k < (partsProgram.asOf wholeAhead).revision .whole ↔ partsAhead .whole < wholeAhead .whole) ∧
    (k = (partsProgram.asOf wholeAhead).revision .whole ↔ partsAhead .whole = wholeAhead .whole) ∧
    ((partsProgram.asOf wholeAhead).revision .whole < k ↔ wholeAhead .whole < partsAhead .whole) :=
  C132_age .default partsProgram partsImpls partsAhead wholeAhead partsProgram_exchanges.history
    partsProgram_exchanges.writer partsProgram_exchanges.reader 2 .whole rfl noParts _ rfl t

/-- `Part { x: 5 }` of revision 1 is written back as revision 2. -/
example : ∃ k k' u u', readU16 .default [1, 5] = .ok (k, u) ∧ readU16 .default [2, 5, 0] = .ok (k', u') ∧ k ≤ k' ∧
    k' = partsProgram.revision .part :=
  C132_rewrite .default partsProgram partsImpls 1 .part rfl (partsProgram_exchanges.history .part) [1, 5] []
    [2, 5, 0] ([⟨.int .u32, (5 : BitVec 32)⟩, ⟨.int .u32, (0 : BitVec 32)⟩] : List _) rfl rfl

/-- `Box::new(Part { x: 5, y: 6 })`, the part at revision 2. -/
example (t : Bytes) : ∃ k rest, readU16 .default ([2, 5, 6] ++ t) = .ok (k, rest) ∧
    k = (Ty.ext .part).revision partsProgram.revision ∧
    (k = (Ty.wrap (.ext .part)).revision partsProgram.revision ↔ (partsProgram.history .part).length = 1) :=
  C132_box .default partsProgram partsImpls 1 .part rfl (partsProgram_exchanges.history .part)
    ([⟨.int .u32, (5 : BitVec 32)⟩, ⟨.int .u32, (6 : BitVec 32)⟩] : List _) _ rfl t

end Revision
