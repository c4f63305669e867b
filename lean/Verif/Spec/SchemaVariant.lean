import Verif.Model.SizeText

/-! # What the options of a variant mean: vocabulary for `Verif.Props.SchemaVariant` -/

namespace Revision

/-- The keywords of variant options that may be given once. -/
inductive VariantKind where
  | start | stop | convert | default | fieldsName | size
  deriving DecidableEq, Repr

/-- The keyword of an option; `override` may be repeated. -/
def VariantOption.kind : VariantOption → Option VariantKind
  | .start _ => some .start
  | .stop _ => some .stop
  | .convert _ => some .convert
  | .default _ => some .default
  | .fieldsName _ => some .fieldsName
  | .size _ => some .size
  | .override _ => none

/-- The revisions an `override(...)` names. -/
def overrideRevisions (ov : List VariantOverride) : List Nat :=
  ov.filterMap fun | .revision r => some r | .discriminant _ => none

/-- The discriminants an `override(...)` names. -/
def overrideDiscs (ov : List VariantOverride) : List Nat :=
  ov.filterMap fun | .discriminant d => some d | .revision _ => none

/-- Options of a variant the documentation allows: no keyword twice, each override names one revision and
at most one discriminant, and `end` only together with `convert_fn`. -/
def WellFormedVariant (os : List VariantOption) : Prop :=
  (os.filterMap VariantOption.kind).Nodup ∧
  (∀ ov, VariantOption.override ov ∈ os →
    (overrideRevisions ov).length = 1 ∧ (overrideDiscs ov).length ≤ 1) ∧
  (VariantKind.stop ∈ os.filterMap VariantOption.kind →
    VariantKind.convert ∈ os.filterMap VariantOption.kind)

/-- The revision and discriminant of an override. -/
def VariantOption.overrideOf : VariantOption → Option (Nat × Option Nat)
  | .override ov => (overrideRevisions ov).head?.map fun r => (r, (overrideDiscs ov).head?)
  | _ => none

/-- The options record the given option. -/
def VariantOptions.Has (o : VariantOptions) : VariantOption → Prop
  | .start n => o.start = some n
  | .stop n => o.stop = some n
  | .convert f => o.convert = some f
  | .default f => o.default = some f
  | .fieldsName f => o.fieldsName = some f
  | .size s => o.size = some s
  | .override ov => ∃ p, (VariantOption.override ov).overrideOf = some p ∧ o.overrides.lookup p.1 = some p.2

/-- The field is part of revision `r`: it had started and not ended. -/
def FieldOptions.liveAt (o : FieldOptions) (r : Nat) : Bool :=
  o.start.all (· ≤ r) && o.stop.all (r < ·)

/-! ### The text of a size -/

/-- A number in decimal. -/
def decimal (ds : List Char) : Nat := ds.foldl (fun n c => n * 10 + (c.toNat - 48)) 0

def isDigit (c : Char) : Prop := 48 ≤ c.toNat ∧ c.toNat ≤ 57

/-- The code points of Unicode's `White_Space`. -/
def whiteSpace : List Nat :=
  [9, 10, 11, 12, 13, 32, 0x85, 0xA0, 0x1680, 0x2000, 0x2001, 0x2002, 0x2003, 0x2004, 0x2005, 0x2006, 0x2007,
    0x2008, 0x2009, 0x200A, 0x2028, 0x2029, 0x202F, 0x205F, 0x3000]

/-- The text names the size: `inline`, `varlen` or `fixed(N)` with `N` a decimal number below 256, maybe with a
plus sign, with white space around the whole and around the number. -/
def SizeText (raw : List Char) : VariantSize → Prop
  | .inline => ∃ a b, raw = a ++ "inline".toList ++ b ∧ (∀ c ∈ a ++ b, c.toNat ∈ whiteSpace)
  | .varlen => ∃ a b, raw = a ++ "varlen".toList ++ b ∧ (∀ c ∈ a ++ b, c.toNat ∈ whiteSpace)
  | .fixed n => ∃ a b c d plus ds,
      raw = a ++ ("fixed(".toList ++ (c ++ (plus ++ ds) ++ d) ++ [')']) ++ b ∧
      (∀ x ∈ a ++ b ++ (c ++ d), x.toNat ∈ whiteSpace) ∧ (plus = [] ∨ plus = ['+']) ∧
      ds ≠ [] ∧ (∀ x ∈ ds, isDigit x) ∧ decimal ds = n ∧ n < 256

/-- An option of a revision that names an encoding other than `default`, and what it is refused with. -/
def EntryOption.RefusedWith (o : EntryOption) (err : MacroErr) : Prop :=
  ((o = .map "indexed" ∨ o = .seq "indexed") ∧ err = .unsupportedIndexed) ∨
  ∃ s, s ≠ "default" ∧ s ≠ "indexed" ∧ (o = .map s ∨ o = .seq s) ∧ err = .unknownEncoding

end Revision
