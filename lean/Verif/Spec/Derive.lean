import Verif.Model.Derive
import Verif.Spec.Laws
import Verif.Spec.Schema

/-!
# What a revisioned type means on the wire

Layout, older programs and migration, without the generated code's bindings and loops.
-/

namespace Revision

variable {V : Type}

/-- A history as the macro accepts it (`C46`): revisions `1 … N`, and `N` fits the header. -/
structure ValidHistory (h : List Entry) : Prop where
  nonempty : h ≠ []
  ascending : h.map Entry.revision = List.range' 1 h.length
  fits : h.length ≤ 65535

/-- The fields that are part of revision `r`, in declaration order. -/
def aliveFields (fs : List (FieldDecl V)) (r : Nat) : List (FieldDecl V) := fs.filter (·.existsAt r)

/-! ### Layout -/

/-- `bs` are the encodings of the values `vs` of the fields `fs`, one each. -/
inductive Encodes (c : FieldDecl V → Codec V) : List (FieldDecl V) → List V → List Bytes → Prop
  | nil : Encodes c [] [] []
  | cons {f fs v vs b bs} : (c f).enc v = .ok b → Encodes c fs vs bs → Encodes c (f :: fs) (v :: vs) (b :: bs)

/-- The value of every field is one its encoding admits. -/
inductive AllValid (c : FieldDecl V → Codec V) : List (FieldDecl V) → List V → Prop
  | nil : AllValid c [] []
  | cons {f fs v vs} : (c f).valid v → AllValid c fs vs → AllValid c (f :: fs) (v :: vs)

/-- One 32-bit offset per field, counted from the start of the table. -/
def offsetTable (bs : List Bytes) : Bytes :=
  (List.range bs.length).flatMap fun i => leBytes 4 (4 * bs.length + ((bs.take i).flatten).length)

/-- The payload of an optimised struct. -/
def structPayload (e : Entry) (bs : List Bytes) : Bytes :=
  if e.indexedStruct then offsetTable bs ++ bs.flatten else bs.flatten

/-- What follows the revision header of a struct whose fields encode to `bs`. -/
def structLayout (e : Entry) (bs : List Bytes) : Bytes :=
  if e.optimised then leBytes 4 (structPayload e bs).length ++ structPayload e bs else bs.flatten

/-! ### Older programs -/

/-- The declaration of a field as it stood when `r` was the current revision: not there if it was
added later, without an end if it was removed later. -/
def FieldDecl.asOf (r : Nat) (f : FieldDecl V) : Option (FieldDecl V) :=
  if f.opts.start.getD 0 ≤ r then
    some { f with opts := { f.opts with stop := f.opts.stop.filter (fun e => e ≤ r) } }
  else none

/-- The fields of a struct as they stood when `r` was the current revision. -/
def fieldsAsOf (r : Nat) (fs : List (FieldDecl V)) : List (FieldDecl V) := fs.filterMap (FieldDecl.asOf r)

/-! ### Migration -/

/-- What each field holds when a value `old` of revision `cur` is read by a program at revision
`tgt`: the stored value or, for a field added since, its default for `cur`. -/
def migratedFields (cur tgt : Nat) : List (FieldDecl V) → List V → Res (List (FieldDecl V × V))
  | [], _ => .ok []
  | f :: fs, old =>
    if f.existsAt cur then
      match old with
      | [] => .panic
      | v :: old => do
        let rest ← migratedFields cur tgt fs old
        pure ((f, v) :: rest)
    else if f.existsAt tgt then do
      let v ← f.dflt cur
      let rest ← migratedFields cur tgt fs old
      pure ((f, v) :: rest)
    else migratedFields cur tgt fs old

/-- Hand the removed fields to their convert functions, in declaration order. -/
def applyConverts (cur : Nat) : List (FieldDecl V × V) → List V → Res (List V)
  | [], this => .ok this
  | (f, v) :: rest, this => do
    let this' ← f.convert cur v this
    applyConverts cur rest this'

/-- A value of revision `cur` in the schema of revision `tgt`. -/
def migrate (cur tgt : Nat) (fs : List (FieldDecl V)) (old : List V) : Res (List V) := do
  let all ← migratedFields cur tgt fs old
  applyConverts cur (all.filter fun p => !p.1.existsAt tgt)
    ((all.filter fun p => p.1.existsAt tgt).map (·.2))

/-- An outcome of a reader that has consumed everything up to `t`. -/
def Res.andRest (x : Res α) (t : Bytes) : Res (α × Bytes) :=
  match x with
  | .ok a => .ok (a, t)
  | .err e => .err e
  | .panic => .panic

/-- No two fields that the reading of revision `cur` deals with have the same name. -/
def DistinctNames (fs : List (FieldDecl V)) (cur tgt : Nat) : Prop :=
  ((fs.filter fun f => f.existsAt cur || f.existsAt tgt).map (·.name)).Nodup

/-! ### Enums -/

/-- The variants that are part of revision `r`, in declaration order. -/
def aliveVariants (vs : List (VariantDecl V)) (r : Nat) : List (VariantDecl V) := vs.filter (·.existsAt r)

/-- An enum the macro accepts at entry `e` (`C46`, `C52`): no two live variants of the same name, the
discriminants can be assigned and fit their 32 bits and, if `e` is optimised, there are at most 32
variants, all with a size and a discriminant below 32. -/
structure AcceptedEnum (e : Entry) (vs : List (VariantDecl V)) : Prop where
  distinct : DistinctVariants e.revision (vs.map VariantDecl.sig)
  discs : ∃ D, calcDiscs e.revision (vs.map VariantDecl.sig) = .ok D ∧ ∀ n d, D.lookup n = some d → d < 2 ^ 32
  optimised : e.optimised = true → validateOptimised e.revision (vs.map VariantDecl.sig) = .ok ()

/-- The discriminant of a live variant at revision `r`. -/
def VariantDecl.discAt (vs : List (VariantDecl V)) (r : Nat) (v : VariantDecl V) (d : Nat) : Prop :=
  ∃ D, calcDiscs r (vs.map VariantDecl.sig) = .ok D ∧ D.lookup v.ident = some d

/-- The payload of an optimised variant, by its declared size. -/
def sizedPayload (size : VariantSize) (body : Bytes) : Bytes :=
  match size with
  | .inline => []
  | .fixed _ => body
  | .varlen => leBytes 4 body.length ++ body

/-- What follows the revision header of an enum value whose variant has discriminant `d` and whose
fields encode to `bs`. -/
def enumLayout (cfg : Cfg) (e : Entry) (d : Nat) (size : VariantSize) (bs : List Bytes) : Bytes :=
  if e.optimised then Tag.new (UInt8.ofNat d) size.cls :: sizedPayload size bs.flatten
  else encU32 cfg d ++ bs.flatten

/-- The declaration of a variant as it stood when `r` was the current revision. -/
def VariantDecl.asOf (r : Nat) (v : VariantDecl V) : Option (VariantDecl V) :=
  if v.opts.start.getD 0 ≤ r then
    some { v with
      opts := { v.opts with stop := v.opts.stop.filter (fun e => e ≤ r) }
      fields := fieldsAsOf r v.fields }
  else none

/-- The variants of an enum as they stood when `r` was the current revision. -/
def variantsAsOf (r : Nat) (vs : List (VariantDecl V)) : List (VariantDecl V) :=
  vs.filterMap (VariantDecl.asOf r)

/-- A variant of revision `cur` in the schema of revision `tgt`: the fields migrate and, if the
variant has been removed, its convert function gets them. -/
def migrateVariant (cur tgt : Nat) (v : VariantDecl V) (fields : List V) : Res (EnumVal V) := do
  let fields' ← migrate cur tgt v.fields fields
  if v.existsAt tgt then pure ⟨v.ident, fields'⟩ else v.convert fields' cur

/-- A value of revision `cur` in the schema of revision `tgt`. -/
def migrateEnum (cur tgt : Nat) (vs : List (VariantDecl V)) (x : EnumVal V) : Res (EnumVal V) :=
  match (aliveVariants vs cur).find? (fun v => v.ident == x.variant) with
  | some v => migrateVariant cur tgt v x.fields
  | none => .panic

end Revision
