import Verif.Spec.Path
import Verif.Spec.Alloc

/-!
# Paths along which only chosen types are decoded

`Program.Sparing`: the types of what is at the end of a path, and of the keys compared along it, are among
those of `leaf`, and no type on the way has a convert function.
-/

namespace Revision

variable {ι : Type}

/-- Values of the type are read into memory of a size known beforehand. -/
def Ty.flat : Ty ι → Bool
  | .unit | .bool | .int _ | .float _ | .notNan _ | .char | .uuid | .duration | .systemTime => true
  | .option t | .bound t | .array _ t => t.flat
  | .result s t | .pair s t => s.flat && t.flat
  | _ => false

/-- A step from a type: on to types of `inner`; keys that are compared are of `leaf`. -/
def Ty.sparingStep (leaf inner : Ty ι → Prop) (ext : ι → Prop) (s : Step) : Ty ι → Prop
  | .option t => s = .some → inner t
  | .result t e => (s = .ok → inner t) ∧ (s = .err → inner e)
  | .vec t | .vector t | .btreeSet t | .hashSet t | .binaryHeap t => ∀ k, s = .elem k → inner t
  | .btreeMap k v | .hashMap k v => (∀ j, s = .value j → inner v) ∧ ∀ b, s = .key b → leaf k ∧ inner v
  | .wrap t => t.sparingStep leaf inner ext s
  | .ext i => ext i
  | _ => True

/-- A step from a derived type without convert functions; an `indexed_*` field is not the end of the path, and
the way on from it is its view. -/
def Body.sparingStep {K : ι → Kind} (last : Bool) (inner view : Ty ι → Prop) (s : Step) : {k : Kind} → Body K k → Prop
  | _, .struct fs => ∀ name, s = .field name → (∀ f ∈ fs, f.opts.convert = none) ∧
    ∀ f ∈ fs, f.name = name → if f.isIndexed = true then last = false ∧ view f.ty else inner f.ty
  | _, .enum vs => ∀ ident, s = .variant ident →
    (∀ v ∈ vs, v.opts.convert = none ∧ ∀ f ∈ v.fields, f.opts.convert = none) ∧
    ∀ v ∈ vs, v.ident = ident → ∀ f ∈ v.fields, inner f.ty
  | _, .foreign _ => True

mutual

/-- Only values of types of `leaf` are decoded along the path. -/
def Program.Sparing (P : Program ι) (leaf : Ty ι → Prop) : List Step → Ty ι → Prop
  | [], t => leaf t
  | s :: p, t => t.sparingStep leaf (P.Sparing leaf p)
    (fun i => Body.sparingStep p.isEmpty (P.Sparing leaf p) (P.SparingView leaf p) s (P.body i)) s

/-- The same from the view of an `indexed_*` field. -/
def Program.SparingView (P : Program ι) (leaf : Ty ι → Prop) : List Step → Ty ι → Prop
  | [], _ => True
  | s :: p, t => t.sparingStep leaf (P.Sparing leaf p) (fun _ => True) s

end

end Revision
