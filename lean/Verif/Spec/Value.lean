import Verif.Spec.Program
import Verif.Spec.Wire

/-!
# The values of a program

What a value of a type of the program is, said of the declarations alone: not of any encoding.
-/

namespace Revision

variable {ι : Type}

/-- `R` relates the elements of the lists, one by one. -/
inductive Pointwise (R : α → β → Prop) : List α → List β → Prop
  | nil : Pointwise R [] []
  | cons {a b as bs} : R a b → Pointwise R as bs → Pointwise R (a :: as) (b :: bs)

/-- A type of which only the values matter. -/
def Codec.only (p : α → Prop) : Codec α where
  valid := p
  enc := fun _ => .panic
  dec := Rd.panic
  skip := Rd.panic
  skipS := Rd.panic
  check := Rd.panic

section
variable {K : ι → Kind}

/-- The field types, where `G` says what the values of the derived types are. -/
def Impls.types (I : Impls K) (n : Nat) (G : (i : ι) → Values K n i → Prop) : Env ι :=
  I.env n fun i => .only (G i)

/-- A value of the type of the field: its invariants hold and it fits the machine. -/
def Field.IsValue (I : Impls K) (n : Nat) (G : (i : ι) → Values K n i → Prop) (f : Field K) (d : DynAt K n) : Prop :=
  ∃ a : f.ty.denote (Values K n), d = ⟨f.ty, a⟩ ∧ f.ty.WF (I.types n G) a ∧ f.ty.Fits (I.types n G) a

/-- One value for each field that is part of revision `r`. -/
def FieldsAre (I : Impls K) (n : Nat) (G : (i : ι) → Values K n i → Prop) (r : Nat) (fs : List (Field K))
    (ds : List (DynAt K n)) : Prop :=
  Pointwise (Field.IsValue I n G) (fs.filter (·.existsAt r)) ds

/-- A value of a type at revision `r`: of a struct, one value per field; of an enum, one of its variants with one
value per field; of a type with impls written by hand, whatever its author says it is. -/
def Body.IsValue (I : Impls K) (n : Nat) (G : (i : ι) → Values K n i → Prop) (r : Nat) :
    {k : Kind} → Body K k → k.values (DynAt K n) → Prop
  | _, .struct fs, this => FieldsAre I n G r fs this
  | _, .enum vs, x => ∃ v ∈ vs, v.existsAt r = true ∧ v.ident = x.variant ∧ FieldsAre I n G r v.fields x.fields
  | _, .foreign x, a => x.codec.valid a

end

/-- A value of type `i` of the program as it is. -/
def Program.IsValue (P : Program ι) (I : Impls P.kind) : (n : Nat) → (i : ι) → Values P.kind n i → Prop
  | 0, _, v => nomatch v
  | n + 1, i, v => (P.body i).IsValue I n (P.IsValue I n) (P.current i) v

/-- The allocator refuses only what exceeds the address space. -/
def Impls.Roomy {K : ι → Kind} (I : Impls K) : Prop := ∀ t k, I.cap t k = decide (k * t.elemBytes < 2 ^ 64)

/-! ### What compiles -/

section
variable {K : ι → Kind}

/-- The functions named in the attributes of a field return values of the types they are declared with. -/
structure Field.Typed (I : Impls K) (n : Nat) (G : (i : ι) → Values K n i → Prop) (r : Nat) (fs : List (Field K))
    (f : Field K) : Prop where
  dflt : ∀ q a, f.dflt n q = .ok a → f.IsValue I n G ⟨f.ty, a⟩
  convert : ∀ q a this this', f.IsValue I n G ⟨f.ty, a⟩ → FieldsAre I n G r fs this →
    f.convert n q a this = .ok this' → FieldsAre I n G r fs this'

/-- A declaration that compiles to what it says: names are not shadowed, variants of optimised revisions still
have the fields they had (`C54_optimised_fields_false`), and functions return what they are declared to. -/
def Body.Typed (I : Impls K) (n : Nat) (G : (i : ι) → Values K n i → Prop) (h : List Entry) :
    {k : Kind} → Body K k → Prop
  | _, .struct fs =>
    (∀ e ∈ h, DistinctFieldNames fs e.revision h.length) ∧ ∀ f ∈ fs, f.Typed I n G h.length fs
  | _, .enum vs =>
    (∀ e ∈ h, ∀ v ∈ vs, DistinctFieldNames v.fields e.revision h.length) ∧
    (∀ e ∈ h, e.optimised = true → ∀ v ∈ vs, v.existsAt e.revision = true → ∀ f ∈ v.fields,
      f.existsAt h.length = f.existsAt e.revision) ∧
    (∀ v ∈ vs, ∀ f ∈ v.fields, f.Typed I n G h.length v.fields) ∧
    ∀ v ∈ vs, ∀ q fields x, v.existsAt h.length = false → FieldsAre I n G h.length v.fields fields →
      v.convert n fields q = .ok x → (Body.enum vs).IsValue I n G h.length x
  | _, .foreign x => ∀ s a t, x.codec.dec s = .ok (a, t) → x.codec.valid a

end

/-- A program that compiles to what it says. -/
structure Program.Typed (P : Program ι) (I : Impls P.kind) : Prop where
  history : ∀ i, ValidHistory (P.history i)
  body : ∀ n i, (P.body i).Typed I n (P.IsValue I n) (P.history i)

/-! ### What can be written -/

section
variable {K : ι → Kind} [DecidableEq ι]

/-- A hash map or a hash set. -/
def Ty.isHash : Ty ι → Bool
  | .hashMap _ _ | .hashSet _ => true
  | _ => false

/-- At the current revision, no hash map or set has an indexed encoding (they are read back in another order,
`C40`), and in an optimised enum the variants have the sizes declared: inline ones have no fields, and the record of a
fixed one is as long as declared (`C53_fixed_size_false`). -/
def Body.Writable (cfg : Cfg) (I : Impls K) (n : Nat) (c : (i : ι) → Codec (Values K n i))
    (G : (i : ι) → Values K n i → Prop) (h : List Entry) : {k : Kind} → Body K k → Prop
  | _, .struct fs => (lastEntry h).optimised = true → ∀ f ∈ fs, f.isIndexed = true → f.ty.isHash = false
  | _, .enum vs => (lastEntry h).optimised = true → ∀ v ∈ vs, v.existsAt h.length = true →
    match v.opts.size with
    | none => False
    | some .inline => v.fields.filter (·.existsAt h.length) = []
    | some (.fixed k) => ∀ ds b, FieldsAre I n G h.length v.fields ds →
        (Body.codec cfg I n c h (.enum vs)).enc ⟨v.ident, ds⟩ = .ok b →
          b.length = (Wire.number cfg 2 h.length).length + 1 + k
    | some .varlen => True
  | _, .foreign _ => True

/-- All types of the program can be written as declared. -/
def Program.Writable (cfg : Cfg) (P : Program ι) (I : Impls P.kind) : Prop :=
  ∀ n i, (P.body i).Writable cfg I n (P.codec cfg I n) (P.IsValue I n) (P.history i)

end

end Revision
