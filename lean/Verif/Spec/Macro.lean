import Verif.Model.Macro
import Verif.Spec.Derive
import Verif.Spec.SchemaVariant

/-!
# Which definitions the macro is documented to accept

Vocabulary for `Verif.Props.Macro`, on the definition as written: no parsing, no passes.
-/

namespace Revision

/-! ### Items -/

/-- The revision of `revision = N`. -/
def ItemOption.legacyOf : ItemOption → Option Nat
  | .revision n => some n
  | _ => none

/-- The number and options of `revision(N, ..)`. -/
def ItemOption.entryOf : ItemOption → Option (Nat × List EntryOption)
  | .entry n os => some (n, os)
  | _ => none

def ItemOption.serializeOf : ItemOption → Option Bool
  | .serialize b => some b
  | _ => none

def ItemOption.deserializeOf : ItemOption → Option Bool
  | .deserialize b => some b
  | _ => none

def ItemOption.skipOf : ItemOption → Option Bool
  | .skip b => some b
  | _ => none

def ItemOption.walkOf : ItemOption → Option Bool
  | .walk b => some b
  | _ => none

/-- The options of one revision make sense: the map and sequence encodings named are the default ones, and
an indexed struct is optimised. -/
def WellFormedEntry (os : List EntryOption) : Prop :=
  (∀ s, EntryOption.map s ∈ os ∨ EntryOption.seq s ∈ os → s = "default") ∧
  (EntryOption.indexedStruct ∈ os → EntryOption.optimised ∈ os)

/-- The entry that `revision(N, ..)` describes. -/
def entryFor (p : Nat × List EntryOption) : Entry :=
  ⟨p.1, decide (EntryOption.optimised ∈ p.2), decide (EntryOption.indexedStruct ∈ p.2)⟩

/-- A list of item options that makes sense and declares the history `h`, empty if it declares none. -/
structure Declares (os : List ItemOption) (h : List Entry) : Prop where
  skipOnce : (os.filterMap ItemOption.skipOf).length ≤ 1
  walkOnce : (os.filterMap ItemOption.walkOf).length ≤ 1
  entries : ∀ p ∈ os.filterMap ItemOption.entryOf, WellFormedEntry p.2
  history :
    (os.filterMap ItemOption.legacyOf = [] ∧ h.Perm ((os.filterMap ItemOption.entryOf).map entryFor) ∧
      h.map Entry.revision = List.range' 1 h.length) ∨
    (∃ n, os.filterMap ItemOption.legacyOf = [n] ∧ os.filterMap ItemOption.entryOf = [] ∧ 1 ≤ n ∧
      h = (List.range' 1 n).map fun r => ⟨r, false, false⟩)

/-- `serialize = ..`, on if not given; the last one counts. -/
def serializeOn (os : List ItemOption) : Bool := (os.filterMap ItemOption.serializeOf).getLast?.getD true

/-- `deserialize = ..`, on if not given; the last one counts. -/
def deserializeOn (os : List ItemOption) : Bool := (os.filterMap ItemOption.deserializeOf).getLast?.getD true

/-- `skip = ..`; like `deserialize` if not given. -/
def skipOn (os : List ItemOption) : Bool := (os.filterMap ItemOption.skipOf).head?.getD (deserializeOn os)

/-- `walk = ..`; like `deserialize` if not given. -/
def walkOn (os : List ItemOption) : Bool := (os.filterMap ItemOption.walkOf).head?.getD (deserializeOn os)

/-! ### Fields and variants -/

/-- The options of all attributes of a field. -/
def FieldSrc.options (f : FieldSrc) : List FieldOption := f.attrs.flatten

/-- The options of all attributes of a variant. -/
def VariantSrc.options (v : VariantSrc) : List VariantOption := v.attrs.flatten

/-- The field is part of revision `r`: it has started and not ended. -/
def FieldSrc.liveAt (f : FieldSrc) (r : Nat) : Bool :=
  f.options.all fun | .start n => n ≤ r | .stop n => r < n | _ => true

/-- The variant is part of revision `r`. -/
def VariantSrc.liveAt (v : VariantSrc) (r : Nat) : Bool :=
  v.options.all fun | .start n => n ≤ r | .stop n => r < n | _ => true

/-- The last override of the variant for revision `r` names the discriminant `d`. -/
def VariantSrc.Asks (v : VariantSrc) (r d : Nat) : Prop :=
  (v.options.filterMap VariantOption.overrideOf).reverse.lookup r = some (some d)

/-- The types `fixed` is for. -/
def FixedType (ty : String) : Prop :=
  ty = "u32" ∨ ty = "i32" ∨ ty = "u64" ∨ ty = "i64" ∨ ty = "u128" ∨ ty = "i128"

/-- A field that makes sense in an item with revisions up to `last`: its options do, and its window lies in
them. -/
def FieldSrc.WellFormed (last : Nat) (f : FieldSrc) : Prop :=
  WellFormedOptions f.options ∧ ∀ n, FieldOption.start n ∈ f.options ∨ FieldOption.stop n ∈ f.options → n ≤ last

/-- A variant that makes sense in an item with revisions up to `last`. -/
def VariantSrc.WellFormed (last : Nat) (v : VariantSrc) : Prop :=
  WellFormedVariant v.options ∧
  (∀ n, VariantOption.start n ∈ v.options ∨ VariantOption.stop n ∈ v.options → n ≤ last) ∧
  ∀ f ∈ v.fields, f.WellFormed last

/-! ### Bodies -/

/-- If the field is part of a revision with the legacy encoding, `fixed` is on a type it is for. -/
def FieldSrc.FixedOk (h : List Entry) (f : FieldSrc) (there : Nat → Bool) : Prop :=
  ∀ e ∈ h, e.optimised = false → there e.revision = true → FieldOption.fixed ∈ f.options → FixedType f.ty

/-- A struct or enum that makes sense with the history `h`. -/
def BodySrc.Documented (h : List Entry) : BodySrc → Prop
  | .struct fs => ∀ f ∈ fs, f.WellFormed h.length ∧ f.FixedOk h f.liveAt
  | .enum vs =>
    (∀ v ∈ vs, v.WellFormed h.length ∧
      ∀ f ∈ v.fields, f.FixedOk h fun r => v.liveAt r && f.liveAt r) ∧
    -- no two live variants ask for the same discriminant
    (∀ e ∈ h, vs.Pairwise fun v w => v.liveAt e.revision = true → w.liveAt e.revision = true →
      ∀ d, v.Asks e.revision d → ¬ w.Asks e.revision d) ∧
    -- an optimised revision has at most 32 variants, with a size, and discriminants of five bits
    (∀ e ∈ h, e.optimised = true → (vs.filter (·.liveAt e.revision)).length ≤ 32 ∧
      ∀ v ∈ vs, v.liveAt e.revision = true →
        (∃ s, VariantOption.size s ∈ v.options) ∧ ∀ d, v.Asks e.revision d → d < 32) ∧
    -- what is written at the current revision: an inline variant has no fields
    (∀ e ∈ h, e.revision = h.length → e.optimised = true → ∀ v ∈ vs, v.liveAt h.length = true →
      VariantOption.size .inline ∈ v.options → ∀ f ∈ v.fields, f.liveAt h.length = false)

/-- Some field or variant has a conversion function. -/
def BodySrc.Converts : BodySrc → Prop
  | .struct fs => ∃ f ∈ fs, ∃ c, FieldOption.convert c ∈ f.options
  | .enum vs => ∃ v ∈ vs, (∃ c, VariantOption.convert c ∈ v.options) ∨
      ∃ f ∈ v.fields, ∃ c, FieldOption.convert c ∈ f.options

/-- A definition that makes sense and declares the history `h`. -/
structure ItemSrc.Documented (s : ItemSrc) (h : List Entry) : Prop where
  history : (Declares s.args h ∧ Declares s.attrs.flatten []) ∨ (Declares s.args [] ∧ Declares s.attrs.flatten h)
  nonempty : h ≠ []
  fits : h.length ≤ 65535
  body : s.body.Documented h
  /-- A walker that may have to convert does so by reading the value and writing it again. -/
  walk : walkOn s.args = true → s.body.Converts → serializeOn s.args = true ∧ deserializeOn s.args = true

/-- An identifier that is not a raw one, such as `r#type`. -/
def PlainName (s : String) : Prop := '#' ∉ s.toList

/-- The names after which a walker's methods are called, those of the fields or the variants that are part of
revision `r`, are no raw identifiers. -/
def BodySrc.PlainNames (r : Nat) : BodySrc → Prop
  | .struct fs => ∀ f ∈ fs, f.liveAt r = true → PlainName f.name
  | .enum vs => ∀ v ∈ vs, v.liveAt r = true → PlainName v.ident

/-- No two variants that are alive at `r` have the same name. -/
def BodySrc.DistinctVariants (r : Nat) : BodySrc → Prop
  | .struct _ => True
  | .enum vs => ((vs.filter (·.liveAt r)).map (·.ident)).Nodup

/-! ### What is left of the definition -/

/-- The names and types of fields, or the variants with theirs. -/
inductive Shape where
  | struct (fields : List (String × String))
  | enum (variants : List (String × List (String × String)))
  deriving DecidableEq, Repr

/-- The names and types in an item without options. -/
def BodyAst.shape : BodyAst → Shape
  | .struct fs => .struct (fs.map fun f => (f.name, f.ty))
  | .enum vs => .enum (vs.map fun v => (v.ident, v.fields.map fun f => (f.name, f.ty)))

/-- The part of a definition that is alive at revision `r`. -/
def BodySrc.shapeAt (r : Nat) : BodySrc → Shape
  | .struct fs => .struct ((fs.filter (·.liveAt r)).map fun f => (f.name, f.ty))
  | .enum vs => .enum ((vs.filter (·.liveAt r)).map fun v =>
      (v.ident, (v.fields.filter (·.liveAt r)).map fun f => (f.name, f.ty)))

/-- The option is one of the switches. -/
def ItemOption.isSwitch : ItemOption → Bool
  | .serialize _ | .deserialize _ | .skip _ | .walk _ => true
  | _ => false

end Revision
