import Verif.Model.Machine
import Verif.Spec.Alloc

/-! # Vocabulary: machines and builds -/

namespace Revision

/-- The type has no numbers of the machine's width in it: no `usize`, no `isize` and no collection or string,
whose length is one. -/
def Ty.usizeFree {ι : Type} : Ty ι → Bool
  | .int .usize | .int .isize => false
  | .unit | .bool | .int _ | .float _ | .char | .uuid | .duration | .systemTime | .notNan _ | .ext _ => true
  | .option t | .bound t | .wrap t | .array _ t => t.usizeFree
  | .result t e | .pair t e => t.usizeFree && e.usizeFree
  | _ => false

/-- The encoding starts with the number of elements, or of bytes. -/
def Ty.prefixed {ι : Type} : Ty ι → Bool
  | .string | .path | .bytes | .vec _ | .btreeMap _ _ | .btreeSet _ | .hashMap _ _ | .hashSet _ | .binaryHeap _ | .vector _ =>
    true
  | _ => false

/-- The bytes of an element of a vector written in one piece (with the feature `specialised-vectors`). -/
def Ty.bulkWidth {ι : Type} : Ty ι → Option Nat
  | .int .usize | .int .isize => none
  | .int k => some (k.bits / 8)
  | .float .f32 => some 4
  | .float .f64 => some 8
  | .uuid => some 16
  | _ => none

section
variable {ι : Type} {K : ι → Kind}

/-- The field is not a map marked `#[revision(indexed_map)]`. -/
def Field.NoIndexedMap (f : Field K) : Prop :=
  (f.opts.indexedMap || f.opts.indexedSeq || f.opts.indexedSet) = true →
    ∀ k v, f.ty ≠ .btreeMap k v ∧ f.ty ≠ .hashMap k v

/-- None of the fields is. -/
def Body.NoIndexedMaps : {k : Kind} → Body K k → Prop
  | _, .struct fs => ∀ f ∈ fs, f.NoIndexedMap
  | _, .enum vs => ∀ v ∈ vs, ∀ f ∈ v.fields, f.NoIndexedMap
  | _, .foreign _ => True

/-- If the impls are written by hand, their checking skip accepts what reading accepts and ends at the same place. -/
def Body.HandChecks : {k : Kind} → Body K k → Prop
  | _, .foreign x => ∀ s r, x.codec.check s = .ok ((), r) ↔ ∃ a, x.codec.dec s = .ok (a, r)
  | _, _ => True

end

/-- No derived type of the program has an indexed map. -/
def Program.NoIndexedMaps {ι : Type} (P : Program ι) : Prop := ∀ i, (P.body i).NoIndexedMaps

end Revision
