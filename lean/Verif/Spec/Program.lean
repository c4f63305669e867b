import Verif.Model.Program
import Verif.Spec.Nested
import Verif.Spec.Ty

/-!
# Programs and their older versions

The program as it stood when each of its types was at an earlier revision, which declarations the
reading of its data supports, and what the current program makes of its values.
-/

namespace Revision

variable {ι : Type}

section
variable {K : ι → Kind}

/-- The field is part of revision `r`. -/
def Field.existsAt (f : Field K) (r : Nat) : Bool := Revision.existsAt f.opts.start f.opts.stop r

/-- The variant is part of revision `r`. -/
def Variant.existsAt (v : Variant K) (r : Nat) : Bool := Revision.existsAt v.opts.start v.opts.stop r

/-- The field has one of the indexed encodings. -/
def Field.isIndexed (f : Field K) : Bool := f.opts.indexedMap || f.opts.indexedSeq || f.opts.indexedSet

/-- What the revision passes see of a variant. -/
def Variant.sig (v : Variant K) : VariantSig := ⟨v.ident, v.opts, v.fields.map (·.opts)⟩

/-! ### Older versions -/

/-- The declaration of a field as it stood when `r` was the current revision. -/
def Field.asOf (r : Nat) (f : Field K) : Option (Field K) :=
  if f.opts.start.getD 0 ≤ r then
    some { f with opts := { f.opts with stop := f.opts.stop.filter (fun e => e ≤ r) } }
  else none

/-- The declaration of a variant as it stood when `r` was the current revision. -/
def Variant.asOf (r : Nat) (v : Variant K) : Option (Variant K) :=
  if v.opts.start.getD 0 ≤ r then
    some { v with
      opts := { v.opts with stop := v.opts.stop.filter (fun e => e ≤ r) }
      fields := v.fields.filterMap (Field.asOf r) }
  else none

/-- The body of a type as it stood when `r` was the current revision. -/
def Body.asOf (r : Nat) : {k : Kind} → Body K k → Body K k
  | _, .struct fs => .struct (fs.filterMap (Field.asOf r))
  | _, .enum vs => .enum (vs.filterMap (Variant.asOf r))
  | _, .foreign x => .foreign x

end

/-- The program as it stood when each type `i` was at its revision `r i`. -/
def Program.asOf (r : ι → Nat) (P : Program ι) : Program ι where
  kind := P.kind
  history := fun i => (P.history i).take (r i)
  body := fun i => (P.body i).asOf (r i)

/-! ### Supported declarations -/

section
variable {K : ι → Kind}

/-- No two fields that the reading of revision `cur` deals with have the same name. -/
def DistinctFieldNames (fs : List (Field K)) (cur tgt : Nat) : Prop :=
  ((fs.filter fun f => f.existsAt cur || f.existsAt tgt).map (·.name)).Nodup

/-- Variants the macro accepts at entry `e` (`C46`, `C52`). -/
structure AcceptedSigs (e : Entry) (vs : List VariantSig) : Prop where
  distinct : DistinctVariants e.revision vs
  discs : ∃ D, calcDiscs e.revision vs = .ok D ∧ ∀ n d, D.lookup n = some d → d < 2 ^ 32
  optimised : e.optimised = true → validateOptimised e.revision vs = .ok ()

/-- The field is not written in bulk where skipping does not know of it (`C55_specialised_false`). -/
def Field.Skippable (cfg : Cfg) (f : Field K) : Prop := cfg.specialised = true ∨ f.opts.specialised = false

/-- A body whose data of entry `e` is read by the program at revision `tgt`: without what `C50`,
`C54` and `C55` exclude. -/
def Body.Readable (cfg : Cfg) (e : Entry) (tgt : Nat) : {k : Kind} → Body K k → Prop
  | _, .struct fs =>
    DistinctFieldNames fs e.revision tgt ∧
    (e.optimised = true → ∀ f ∈ fs, f.existsAt e.revision = true → f.existsAt tgt = false →
      f.isIndexed = false) ∧
    (e.optimised = false → ∀ f ∈ fs, f.Skippable cfg)
  | _, .enum vs =>
    AcceptedSigs e (vs.map Variant.sig) ∧
    (e.optimised = true → ∀ v ∈ vs, v.existsAt e.revision = true → ∀ f ∈ v.fields,
      f.existsAt tgt = f.existsAt e.revision) ∧
    (e.optimised = false → ∀ v ∈ vs, v.existsAt e.revision = true →
      DistinctFieldNames v.fields e.revision tgt) ∧
    (e.optimised = false → ∀ v ∈ vs, ∀ f ∈ v.fields, f.Skippable cfg)
  | _, .foreign _ => True

end

/-- The entry at which the program as it stood at `r` writes type `i`. -/
def Program.entryAt (P : Program ι) (r : ι → Nat) (i : ι) : Entry := lastEntry ((P.history i).take (r i))

/-- A program that reads the data it wrote when its types were at the revisions `r`. -/
structure Program.Readable (cfg : Cfg) (P : Program ι) (r : ι → Nat) : Prop where
  history : ∀ i, ValidHistory (P.history i)
  lower : ∀ i, 1 ≤ r i
  upper : ∀ i, r i ≤ (P.history i).length
  body : ∀ i, (P.body i).Readable cfg (P.entryAt r i) (P.history i).length

/-- The revisions of the program as it is. -/
def Program.current (P : Program ι) (i : ι) : Nat := (P.history i).length

/-! ### Migration -/

section
variable {K : ι → Kind} [DecidableEq ι]

/-- The value of a field with every derived value in it migrated by `g`: `E` is the writer's
environment, `E'` the reader's. -/
def Field.migrateValue (cfg : Cfg) (I I' : Impls K) (n m : Nat) (c : (i : ι) → Codec (Values K n i))
    (c' : (i : ι) → Codec (Values K m i)) (g : (i : ι) → Values K n i → Option (Values K m i)) (indexed : Bool)
    (f : Field K) (v : DynAt K n) : Option (DynAt K m) :=
  match Dyn.proj (E := I.env n c) f.ty v with
  | some a =>
    (if indexed && f.isIndexed then f.ty.migrateIndexed cfg (I.env n c) (I'.env m c') g a
      else f.ty.migrate (I.env n c) (I'.env m c') g a).map fun b => ⟨f.ty, b⟩
  | none => none

/-- What the declaration says of a field, as `migrate` (`C50`) wants it: its revisions, the value of its `default_fn` at a
revision, and its `convert_fn` for values of its type.  (The impls of its type do not matter there.) -/
def Field.migration (cfg : Cfg) (I : Impls K) (n : Nat) (c : (i : ι) → Codec (Values K n i)) (f : Field K) :
    FieldDecl (DynAt K n) :=
  { f.decl cfg I n c with
    name := f.name
    opts := f.opts
    dflt := fun r => match f.dflt n r with
      | .ok a => .ok ⟨f.ty, a⟩
      | .err e => .err e
      | .panic => .panic
    convert := fun r v this => match Dyn.proj (E := I.env n c) f.ty v with
      | some a => f.convert n r a this
      | none => .panic }

/-- The same for a variant. -/
def Variant.migration (cfg : Cfg) (I : Impls K) (n : Nat) (c : (i : ι) → Codec (Values K n i)) (v : Variant K) :
    VariantDecl (DynAt K n) :=
  ⟨v.ident, v.opts, v.fields.map (·.migration cfg I n c), v.convert n⟩

/-- A value of a derived type written at entry `e` in the schema of revision `tgt`: first the derived
values in its fields migrate, then the value itself as `migrate` and `migrateEnum` say (`C50`, `C54`).  Values of
types with impls written by hand stay as they are. -/
def Body.migrate (cfg : Cfg) (I I' : Impls K) (n m : Nat) (c : (i : ι) → Codec (Values K n i))
    (c' : (i : ι) → Codec (Values K m i)) (g : (i : ι) → Values K n i → Option (Values K m i)) (e : Entry)
    (tgt : Nat) : {k : Kind} → Body K k → k.values (DynAt K n) → Option (k.values (DynAt K m))
  | _, .struct fs, this =>
    (migrateLive (·.existsAt e.revision)
      (Field.migrateValue cfg I I' n m c c' g e.optimised) fs this).bind fun ws =>
      (Revision.migrate e.revision tgt (fs.map (·.migration cfg I' m c')) ws).ok?
  | _, .enum vs, x =>
    ((vs.filter (·.existsAt e.revision)).find? fun v => v.ident == x.variant).bind fun v =>
      (migrateLive (·.existsAt e.revision)
        (Field.migrateValue cfg I I' n m c c' g false) v.fields x.fields).bind fun ws =>
        (migrateEnum e.revision tgt (vs.map (·.migration cfg I' m c')) ⟨x.variant, ws⟩).ok?
  | _, .foreign _, x => some x

end

/-- What the program makes of a value of type `i` of the program as it stood at `r`; `I` and `I'` are
what the writer and the reader depend on besides the declarations.  The value nests at most `n` deep and the
reader follows `m` levels of nesting. -/
def Program.migrate [DecidableEq ι] (cfg : Cfg) (P : Program ι) (I I' : Impls P.kind) (r : ι → Nat) :
    (n m : Nat) → (i : ι) → Values P.kind n i → Option (Values P.kind m i)
  | 0, _, _, v => nomatch v
  | _ + 1, 0, _, _ => none
  | n + 1, m + 1, i, v =>
    Body.migrate cfg I I' n m ((P.asOf r).codec cfg I n) (P.codec cfg I' m) (P.migrate cfg I I' r n m)
      (P.entryAt r i) (P.history i).length (P.body i) v

/-! ### Declarations that cannot panic -/

section
variable {K : ι → Kind}

/-- A field the reading of which cannot panic: no times (`C12`), no `indexed_map`
(`C69_map_overflow_false`), the other indexed encodings on the types that have them, and functions
that do not panic. -/
structure Field.Tame (f : Field K) : Prop where
  timeFree : f.ty.timeFree = true
  noMap : f.opts.indexedMap = false
  indexed : f.opts.indexedSeq = true ∨ f.opts.indexedSet = true →
    (∃ a, f.ty = .vec a) ∨ (∃ a, f.ty = .vector a) ∨ (∃ a, f.ty = .btreeSet a) ∨ (∃ a, f.ty = .hashSet a)
  dflt : ∀ n r, f.dflt n r ≠ .panic
  convert : ∀ n r a this, f.convert n r a this ≠ .panic

/-- All fields are tame, no two of them have the same name, and removed variants have a convert
function that does not panic; impls written by hand do not panic. -/
def Body.Tame (h : List Entry) : {k : Kind} → Body K k → Prop
  | _, .struct fs =>
    (∀ f ∈ fs, f.Tame) ∧ ∀ e ∈ h, DistinctFieldNames fs e.revision (latest h)
  | _, .enum vs =>
    (∀ v ∈ vs, ∀ f ∈ v.fields, f.Tame) ∧
    (∀ e ∈ h, ∀ v ∈ vs, DistinctFieldNames v.fields e.revision (latest h)) ∧
    ∀ v ∈ vs, v.existsAt (latest h) = false → ∀ n fields r, v.convert n fields r ≠ .panic
  | _, .foreign x => x.codec.PanicFree

end

/-- A program all of whose types are tame. -/
def Program.Tame (P : Program ι) : Prop := ∀ i, (P.body i).Tame (P.history i)

end Revision
