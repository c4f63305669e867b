import Verif.Model.Program
import Verif.Spec.Derive
import Verif.Spec.Ty

/-!
# What the cargo feature `fixed-width-encoding` changes

The types all of whose values take the same number of bytes, and the types whose bytes do not depend on the feature.
-/

namespace Revision

/-- The size of two parts. -/
def both : Option Nat → Option Nat → Option Nat
  | some a, some b => some (a + b)
  | _, _ => none

/-- The number of bytes every value of a type takes with `fixed-width-encoding`, if there is one: 2, 4, 8 or 16 for an
integer of that many bytes, 4 for a tag, 8 for a count.  `X` is the same for types of other crates and derived types. -/
def Ty.width (X : ι → Option Nat) : Ty ι → Option Nat
  | .unit => some 0
  | .bool => some 1
  | .int k => some (k.bits / 8)
  | .float f | .notNan f => some f.bytes
  | .uuid => some 16
  | .duration | .systemTime => some 12
  | .char | .string | .path | .bytes => none
  | .option t => if t.width X = some 0 then some 1 else none
  | .bound t => if t.width X = some 0 then some 4 else none
  | .result t e => match t.width X, e.width X with
    | some a, some b => if a = b then some (4 + a) else none
    | _, _ => none
  | .wrap t => t.width X
  | .pair s t => both (s.width X) (t.width X)
  | .array n t => if n = 0 then some 0 else (t.width X).map (n * ·)
  | .vec t | .vector t | .btreeSet t | .hashSet t | .binaryHeap t => if t.width X = some 0 then some 8 else none
  | .btreeMap k v | .hashMap k v => if k.width X = some 0 ∧ v.width X = some 0 then some 8 else none
  | .ext i => X i

/-- `some n`: all values of interest are written, in `n` bytes.  `none`: two of them are written in different numbers
of bytes. -/
def AllTake (ok : α → Prop) (enc : α → Res Bytes) : Option Nat → Prop
  | some n => (∃ v, ok v) ∧ ∀ v, ok v → ∃ b, enc v = .ok b ∧ b.length = n
  | none => ∃ v w b c, ok v ∧ ok w ∧ enc v = .ok b ∧ enc w = .ok c ∧ b.length ≠ c.length

/-- No integer of more than one byte, no tag and no count anywhere in the type. -/
def Ty.widthFree : Ty ι → Bool
  | .unit | .bool | .int .u8 | .int .i8 | .float _ | .notNan _ | .uuid | .char | .ext _ => true
  | .option t | .wrap t => t.widthFree
  | .array n t => n == 0 || t.widthFree
  | .pair s t => s.widthFree && t.widthFree
  | _ => false

/-! ### Derived types -/

/-- The bytes a struct adds to those of its fields: the revision, for the optimised encoding a length, and an offset
for each field if they are indexed. -/
def structOverhead (e : Entry) (fields : Nat) : Nat :=
  2 + (if e.optimised then 4 + (if e.indexedStruct then 4 * fields else 0) else 0)

/-- The bytes a value of a variant takes whose fields take `fields` bytes: 2 for the revision, then 4 for the discriminant and the
fields; in the optimised encoding 1 for the tag, then nothing, the declared size, or 4 for the length and the fields. -/
def variantBytes (e : Entry) (size : VariantSize) (fields : Nat) : Nat :=
  if e.optimised then
    match size with
    | .inline => 2 + 1
    | .fixed n => 2 + 1 + n
    | .varlen => 2 + 1 + 4 + fields
  else 2 + 4 + fields

section
variable {K : ι → Kind}

/-- The bytes a field takes; an `indexed_*` or `specialised` field has no size of its own. -/
def Field.width (X : ι → Option Nat) (e : Entry) (f : Field K) : Option Nat :=
  if e.optimised then (if f.opts.indexedMap || f.opts.indexedSeq || f.opts.indexedSet then none else f.ty.width X)
  else (if f.opts.specialised && !f.opts.fixed then none else f.ty.width X)

/-- The bytes some fields take together. -/
def Field.widths (X : ι → Option Nat) (e : Entry) : List (Field K) → Option Nat
  | [] => some 0
  | f :: fs => both (f.width X e) (Field.widths X e fs)

/-- The bytes a field of a variant takes; there `indexed_*` changes nothing. -/
def Field.variantWidth (X : ι → Option Nat) (e : Entry) (f : Field K) : Option Nat :=
  if e.optimised then f.ty.width X else f.width X e

/-- The bytes some fields of a variant take together. -/
def Field.variantWidths (X : ι → Option Nat) (e : Entry) : List (Field K) → Option Nat
  | [] => some 0
  | f :: fs => both (f.variantWidth X e) (Field.variantWidths X e fs)

/-- The bytes a value of a variant takes if its fields have a size or need none. -/
def Variant.width (X : ι → Option Nat) (h : List Entry) (v : Variant K) : Option Nat :=
  let size := v.opts.size.getD .inline
  if (lastEntry h).optimised && size != .varlen then some (variantBytes (lastEntry h) size 0)
  else (Field.variantWidths X (lastEntry h) (v.fields.filter fun f => existsAt f.opts.start f.opts.stop h.length)).map
    (variantBytes (lastEntry h) size)

/-- The number they all are. -/
def same : List (Option Nat) → Option Nat
  | [] => none
  | w :: ws => if ws.all (· == w) then w else none

/-- The bytes a struct takes, from those its fields take; those an enum takes, if all its variants take as many. -/
def Body.width (X : ι → Option Nat) (h : List Entry) : {k : Kind} → Body K k → Option Nat
  | _, .struct fs =>
    let alive := fs.filter fun f => existsAt f.opts.start f.opts.stop h.length
    both (some (structOverhead (lastEntry h) alive.length)) (Field.widths X (lastEntry h) alive)
  | _, .enum vs => same ((vs.filter fun v => existsAt v.opts.start v.opts.stop h.length).map (Variant.width X h))
  | _, .foreign _ => none

end

/-- Sizes of the types of a program that agree with the sizes of their fields. -/
def Program.Widths (P : Program ι) (w : ι → Option Nat) : Prop :=
  ∀ i m, w i = some m → (P.body i).width w (P.history i) = some m

end Revision
