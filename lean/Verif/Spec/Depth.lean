import Verif.Spec.ProgramLift

/-!
# Functions that do not look at depth

The functions named in attributes are given to the model once for each depth.  Those of a real program
do not know the depth: what they return at one depth is, seen at a greater one, what they return there.
Values they make up themselves nest to some depth `d`; below it they need not exist.
-/

namespace Revision

section
variable {ι : Type} {K : ι → Kind}

/-- A value with its type as a value of a greater depth. -/
def DynAt.lift (n m : Nat) (h : n ≤ m) (v : DynAt K n) : DynAt K m := ⟨v.1, v.1.map (Values.lift K n m h) v.2⟩

/-- The functions of a field do the same at all depths from `d` on. -/
structure Field.DepthFree (d : Nat) (f : Field K) : Prop where
  dflt : ∀ n m (h : n ≤ m) r, d ≤ n → f.dflt m r = f.ty.map (Values.lift K n m h) <$> f.dflt n r
  convert : ∀ n m (h : n ≤ m) r a this, d ≤ n →
    f.convert m r (f.ty.map (Values.lift K n m h) a) (this.map (DynAt.lift n m h)) =
      List.map (DynAt.lift n m h) <$> f.convert n r a this

/-- So do those of a variant and its fields. -/
structure Variant.DepthFree (d : Nat) (v : Variant K) : Prop where
  fields : ∀ f ∈ v.fields, f.DepthFree d
  convert : ∀ n m (h : n ≤ m) this r, d ≤ n →
    v.convert m (this.map (DynAt.lift n m h)) r =
      (fun x : EnumVal (DynAt K n) => ⟨x.variant, x.fields.map (DynAt.lift n m h)⟩) <$> v.convert n this r

/-- So do all functions of a type. -/
def Body.DepthFree (d : Nat) : {k : Kind} → Body K k → Prop
  | _, .struct fs => ∀ f ∈ fs, f.DepthFree d
  | _, .enum vs => ∀ v ∈ vs, v.DepthFree d
  | _, .foreign _ => True

/-- So do all functions of a program. -/
def Program.DepthFree (d : Nat) (P : Program ι) : Prop := ∀ i, (P.body i).DepthFree d

end

/-- Replace a value that was read, and leave what was refused and what was left of the input. -/
def Res.mapFst (f : α → β) : Res (α × γ) → Res (β × γ)
  | .ok (a, c) => .ok (f a, c)
  | .err e => .err e
  | .panic => .panic

end Revision
