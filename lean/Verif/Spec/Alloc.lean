import Verif.Spec.Program

/-!
# Memory requested while reading

Which buffers an allocator must grant for an input of a given size, and for which types the input
bounds them.
-/

namespace Revision

variable {ι : Type}

/-- How many elements of the type one byte of input can stand for: eight for `bool`, which vectors pack,
one for any other. -/
def Ty.perByte : Ty ι → Nat
  | .bool => 8
  | _ => 1

/-- The allocator grants the buffers that `L` bytes of input can justify: no more elements than bytes,
eight times as many for `bool`. -/
def GrantsFor (cap : Ty ι → Nat → Bool) (L : Nat) : Prop := ∀ t n, n ≤ t.perByte * L → cap t n = true

/-- Values of the type take no bytes: `()`, empty arrays, and tuples, arrays and wrappers of such. -/
def Ty.weightless : Ty ι → Bool
  | .unit => true
  | .array n t => n == 0 || t.weightless
  | .pair s t => s.weightless && t.weightless
  | .wrap t => t.weightless
  | _ => false

/-- No collection in the type has weightless elements. -/
def Ty.solid : Ty ι → Bool
  | .option t | .bound t | .wrap t | .array _ t => t.solid
  | .result s t | .pair s t => s.solid && t.solid
  | .vec t | .btreeSet t | .hashSet t | .binaryHeap t | .vector t => !t.weightless && t.solid
  | .btreeMap k v | .hashMap k v => !(k.weightless && v.weightless) && k.solid && v.solid
  | _ => true

/-- No `PathBuf` anywhere in the type. -/
def Ty.pathFree : Ty ι → Bool
  | .path => false
  | .option t | .bound t | .wrap t | .array _ t | .vec t | .btreeSet t | .hashSet t
  | .binaryHeap t | .vector t => t.pathFree
  | .result s t | .pair s t | .btreeMap s t | .hashMap s t => s.pathFree && t.pathFree
  | _ => true

/-- The same impls with an allocator that never refuses. -/
def Impls.unlimited {K : ι → Kind} (I : Impls K) : Impls K := { I with cap := fun _ _ => true }

/-- The types of all fields of a body. -/
def Body.types {K : ι → Kind} : {k : Kind} → Body K k → List (Ty ι)
  | _, .struct fs => fs.map (·.ty)
  | _, .enum vs => vs.flatMap fun v => v.fields.map (·.ty)
  | _, .foreign _ => []

/-- The declared sizes of a body's fixed-size variants fit a byte, as the macro's `u8` makes them. -/
def Body.ByteSizes {K : ι → Kind} : {k : Kind} → Body K k → Prop
  | _, .struct _ => True
  | _, .enum vs => ∀ v ∈ vs, ∀ n, v.opts.size = some (.fixed n) → n < 256
  | _, .foreign _ => True

end Revision
