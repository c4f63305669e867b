import Verif.Model.DeriveTy
import Verif.Spec.Foreign

/-!
# Programs: mutually recursive derived types

`#[revisioned]` types use one another, and themselves, as field types: the impls generated for one
call those generated for the others (`<T as SerializeRevisioned>::serialize_revisioned`,
`/repo/revision-derive/src/expand/ser.rs:125-146`; `de.rs:384-450`).  A program is a family of such
types.  Among them may be types with impls written by hand, for this crate's traits are open:
`/repo/src/implementations/` has some for types of other crates, and users write their own.

Simplification: values are stratified by how deep the derived types in them nest.  `Values K n i` are
the values of type `i` nesting at most `n` deep, and the impls at `n` are those of the program
restricted to them; theorems hold for all `n`, and every value of the program nests to some finite
depth.  The choice of `n` is not observable as long as it is large enough for the value
(`C73_depth_written`, `C73_any_depth_partial`, `C74_nested_migration_partial`), and for a reader as
long as it is larger than the input (`C100_depth_partial`).  Recursion in the reader is bounded by the stack
in reality; here it is bounded by `n`, and the impl for depth 0 refuses everything.
-/

namespace Revision

/-- What `#[revisioned]` is applied to, `ItemKind`, `/repo/revision-derive/src/ast/mod.rs:34-52`; or a type with
values `X` it is not applied to. -/
inductive Kind where
  | struct
  | enum
  | foreign (X : Type)

/-- Values of a struct or enum whose fields hold values `V`, or of a type with impls written by hand:
`/repo/revision-derive/src/ast/mod.rs:34-52`. -/
def Kind.values : Kind → Type → Type
  | .struct, V => List V
  | .enum, V => EnumVal V
  | .foreign X, _ => X

/-- Values of the derived type `i` in which derived types nest at most `n` deep:
`/repo/revision-derive/src/ast/mod.rs:34-52`. -/
def Values {ι : Type} (K : ι → Kind) : Nat → ι → Type
  | 0, _ => Empty
  | n + 1, i => (K i).values ((t : Ty ι) × t.denote (Values K n))

/-- Field values, with their types, in which derived types nest at most `n` deep:
what the fields of `/repo/revision-derive/src/ast/mod.rs:227-233` hold. -/
abbrev DynAt {ι : Type} (K : ι → Kind) (n : Nat) := (t : Ty ι) × t.denote (Values K n)

/-- A declared field, `/repo/revision-derive/src/ast/mod.rs:227-233`: name, attributes, type and the
functions its attributes name. -/
structure Field {ι : Type} (K : ι → Kind) where
  name : String
  opts : FieldOptions
  ty : Ty ι
  dflt : (n : Nat) → Nat → Res (ty.denote (Values K n))
  convert : (n : Nat) → Nat → ty.denote (Values K n) → List (DynAt K n) → Res (List (DynAt K n))

/-- A declared variant, `/repo/revision-derive/src/ast/mod.rs:76-82`. -/
structure Variant {ι : Type} (K : ι → Kind) where
  ident : String
  opts : VariantOptions
  fields : List (Field K)
  convert : (n : Nat) → List (DynAt K n) → Nat → Res (EnumVal (DynAt K n))

/-- The body of a derived type, or the impls of a type that has them written by hand:
`/repo/revision-derive/src/ast/mod.rs:54-61`, `:140-146`. -/
inductive Body {ι : Type} (K : ι → Kind) : Kind → Type 1 where
  | struct (fields : List (Field K)) : Body K .struct
  | enum (variants : List (Variant K)) : Body K .enum
  | foreign {X : Type} (impls : Foreign X) : Body K (.foreign X)

/-- The types of a program: what each is, its history and its body.  The history of a type with impls written by
hand means nothing: the types `/repo/revision-derive/src/lib.rs:214-220` is applied to. -/
structure Program (ι : Type) where
  kind : ι → Kind
  history : ι → List Entry
  body : (i : ι) → Body kind (kind i)

/-- What the impls depend on outside the declarations: the allocator and the `Ord` and `Eq` impls:
the bounds of `/repo/src/implementations/collections.rs:14-16`, `:64`, `:115-117`. -/
structure Impls {ι : Type} (K : ι → Kind) where
  cap : Ty ι → Nat → Bool
  cmp : (n : Nat) → (t : Ty ι) → t.denote (Values K n) → t.denote (Values K n) → Ordering
  eq : (n : Nat) → (t : Ty ι) → t.denote (Values K n) → t.denote (Values K n) → Bool

section
variable {ι : Type} {K : ι → Kind}

/-- The environment of the field types, given the impls of the derived types:
see `Env`; `/repo/revision-derive/src/expand/ser.rs:125-146`. -/
def Impls.env (I : Impls K) (n : Nat) (c : (i : ι) → Codec (Values K n i)) : Env ι where
  X := Values K n
  extC := c
  cap := I.cap
  cmp := I.cmp n
  eq := I.eq n

variable [DecidableEq ι]

/-- A field and the impls its type and attributes select:
`/repo/revision-derive/src/expand/ser.rs:125-146` and `/repo/revision-derive/src/expand/de.rs:384-450`. -/
def Field.decl (cfg : Cfg) (I : Impls K) (n : Nat) (c : (i : ι) → Codec (Values K n i)) (f : Field K) :
    FieldDecl (DynAt K n) :=
  tyField cfg (I.env n c) f.name f.opts f.ty (f.dflt n) (f.convert n)

/-- A variant and the impls of its fields:
`/repo/revision-derive/src/expand/ser.rs:156-236` and `/repo/revision-derive/src/expand/de.rs:214-376`. -/
def Variant.decl (cfg : Cfg) (I : Impls K) (n : Nat) (c : (i : ι) → Codec (Values K n i)) (v : Variant K) :
    VariantDecl (DynAt K n) :=
  ⟨v.ident, v.opts, v.fields.map (·.decl cfg I n c), v.convert n⟩

/-- The impls generated for a derived type, given those its fields use:
`/repo/revision-derive/src/expand/mod.rs:22-292`. -/
def Body.codec (cfg : Cfg) (I : Impls K) (n : Nat) (c : (i : ι) → Codec (Values K n i)) (h : List Entry) :
    {k : Kind} → Body K k → Codec (k.values (DynAt K n))
  | _, .struct fs => structC cfg h (fs.map (·.decl cfg I n c))
  | _, .enum vs => enumC cfg h (vs.map (·.decl cfg I n c))
  | _, .foreign x => x.codec

/-- There are no values of depth 0:
the end of the recursion through `/repo/revision-derive/src/expand/de.rs:384-450`. -/
def neverC : Codec Empty where
  valid := fun _ => True
  enc := fun v => nomatch v
  dec := Rd.fail .deserialize
  skip := Rd.fail .deserialize
  skipS := Rd.fail .deserialize
  check := Rd.fail .deserialize

/-- The impls of a program: `/repo/revision-derive/src/expand/mod.rs:22-292`. -/
def Program.codec (cfg : Cfg) (P : Program ι) (I : Impls P.kind) : (n : Nat) → (i : ι) → Codec (Values P.kind n i)
  | 0, _ => neverC
  | n + 1, i => Body.codec cfg I n (Program.codec cfg P I n) (P.history i) (P.body i)

end

end Revision
