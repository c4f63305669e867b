import Verif.Spec.Ty
import Verif.Model.Program

/-!
# What the cargo feature `specialised-vectors` changes

The types whose bytes do not depend on the feature.
-/

namespace Revision

/-- The element types whose `Vec` gets other bytes with `specialised-vectors`: booleans are packed into bits, and
integers of two bytes and more are written as they lie in memory, which for unsigned ones is what
`fixed-width-encoding` (`fw`) does anyway.  Bytes, floats and UUIDs keep theirs, and `usize` and `isize` are not
specialised. -/
def Ty.reshaped (fw : Bool) : Ty ι → Bool
  | .bool => true
  | .int .u16 | .int .u32 | .int .u64 | .int .u128 => !fw
  | .int .i16 | .int .i32 | .int .i64 | .int .i128 => true
  | _ => false

/-- No `Vec` of such elements anywhere in the type. -/
def Ty.steady (fw : Bool) : Ty ι → Bool
  | .vec t => !t.reshaped fw && t.steady fw
  | .array _ t | .option t | .bound t | .wrap t | .btreeSet t | .hashSet t | .binaryHeap t | .vector t => t.steady fw
  | .result s t | .pair s t | .btreeMap s t | .hashMap s t => s.steady fw && t.steady fw
  | _ => true

/-- Arrays have at least one element: there is no impl for `[T; 0]`, `/repo/src/implementations/arrays.rs:55-61`. -/
def Ty.arraysFull : Ty ι → Bool
  | .array n t => n != 0 && t.arraysFull
  | .vec t | .option t | .bound t | .wrap t | .btreeSet t | .hashSet t | .binaryHeap t | .vector t => t.arraysFull
  | .result s t | .pair s t | .btreeMap s t | .hashMap s t => s.arraysFull && t.arraysFull
  | _ => true

/-- The types of the elements, keys and values of a collection have no such `Vec` in them. -/
def Ty.steadyParts (fw : Bool) : Ty ι → Bool
  | .vec t | .vector t | .btreeSet t | .hashSet t => t.steady fw
  | .btreeMap k v | .hashMap k v => k.steady fw && v.steady fw
  | t => t.steady fw

/-- A field whose bytes do not depend on the feature, at a revision `e`: by its type, or as a `Vec` marked
`specialised` in a legacy format, or as an indexed collection in an optimised struct. -/
def Field.Steady {K : ι → Kind} (fw : Bool) (e : Entry) (inStruct : Bool) (f : Field K) : Prop :=
  f.ty.steady fw = true ∨
  (e.optimised = false ∧ f.opts.specialised = true ∧ f.opts.fixed = false ∧ ∃ t, f.ty = .vec t ∧ t.steady fw = true) ∨
  (e.optimised = true ∧ inStruct = true ∧ (f.opts.indexedMap || f.opts.indexedSeq || f.opts.indexedSet) = true ∧
    f.ty.steadyParts fw = true)

/-- All fields of the current revision of a derived type. -/
def Body.Steady {K : ι → Kind} (fw : Bool) (h : List Entry) : {k : Kind} → Body K k → Prop
  | _, .struct fs => ∀ f ∈ fs, existsAt f.opts.start f.opts.stop (lastEntry h).revision = true →
      f.Steady fw (lastEntry h) true
  | _, .enum vs => ∀ v ∈ vs, ∀ f ∈ v.fields, existsAt f.opts.start f.opts.stop (lastEntry h).revision = true →
      f.Steady fw (lastEntry h) false
  | _, .foreign _ => True

/-- A program whose data does not depend on the feature. -/
def Program.Steady (fw : Bool) (P : Program ι) : Prop := ∀ i, (P.body i).Steady fw (P.history i)

end Revision
