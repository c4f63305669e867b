import Verif.Spec.Write

/-!
# How many bytes a value takes at most

An upper bound on the size of a serialised value, computed from the value and the declarations alone.
-/

namespace Revision

variable {ι : Type}

/-- The most bytes an integer takes: its own width, and a marker byte if it has more than one. -/
def IntTy.most (k : IntTy) : Nat := if k.bits = 8 then 1 else k.bits / 8 + 1

/-- The most bytes a value takes, given the same for derived types: 9 for each count, 5 for each tag (1 for that of
an option), and the parts. -/
def Ty.most {X : ι → Type} (S : (i : ι) → X i → Nat) : (t : Ty ι) → t.denote X → Nat
  | .unit, _ => 0
  | .bool, _ => 1
  | .int k, _ => k.most
  | .float f, _ => f.bytes
  | .notNan f, _ => f.bytes
  | .uuid, _ => 16
  | .char, _ => 4
  | .string, s => 9 + s.toByteArray.size
  | .path, p => 9 + p.length
  | .bytes, p => 9 + p.length
  | .duration, _ => 14
  | .systemTime, _ => 14
  | .option t, v => 1 + match v with
    | none => 0
    | some a => t.most S a
  | .result t e, v => 5 + match v with
    | .ok a => t.most S a
    | .error a => e.most S a
  | .bound t, v => 5 + match v with
    | .unbounded => 0
    | .included a => t.most S a
    | .excluded a => t.most S a
  | .wrap t, v => t.most S v
  | .pair s t, v => s.most S v.1 + t.most S v.2
  | .array _ t, l => (l.map (t.most S)).sum
  | .vec t, l => 9 + (l.map (t.most S)).sum
  | .vector t, l => 9 + (l.map (t.most S)).sum
  | .btreeSet t, l => 9 + (l.map (t.most S)).sum
  | .hashSet t, l => 9 + (l.map (t.most S)).sum
  | .binaryHeap t, l => 9 + (l.map (t.most S)).sum
  | .btreeMap k v, l => 9 + (l.map fun e => k.most S e.1 + v.most S e.2).sum
  | .hashMap k v, l => 9 + (l.map fun e => k.most S e.1 + v.most S e.2).sum
  | .ext i, v => S i v

/-- The number of elements or entries of a collection. -/
def Ty.count {X : ι → Type} : (t : Ty ι) → t.denote X → Nat
  | .vec _, l => l.length
  | .vector _, l => l.length
  | .btreeSet _, l => l.length
  | .hashSet _, l => l.length
  | .btreeMap _ _, l => l.length
  | .hashMap _ _, l => l.length
  | _, _ => 0

section
variable {K : ι → Kind} {n : Nat}

/-- The most bytes the value of a field takes: 4 for its offset and, if the field has an index, 9 and 8 more for each
element. -/
def Field.most (S : (i : ι) → Values K n i → Nat) (f : Field K) (d : DynAt K n) : Nat :=
  4 + (d.1.most S d.2 + if f.isIndexed then 9 + 8 * d.1.count d.2 else 0)

/-- The most bytes the fields of revision `r` take. -/
def fieldsMost (S : (i : ι) → Values K n i → Nat) (r : Nat) (fs : List (Field K)) (ds : List (DynAt K n)) : Nat :=
  (((fs.filter (·.existsAt r)).zip ds).map fun p => p.1.most S p.2).sum

/-- The most bytes a value of a derived type takes: 8 for the revision, the length and the tag, and its fields. `F` is
the same for types with impls written by hand. -/
def Body.most (S : (i : ι) → Values K n i → Nat) (r : Nat) : {k : Kind} → Body K k → (k.values (DynAt K n) → Nat) →
    k.values (DynAt K n) → Nat
  | _, .struct fs, _, this => 8 + fieldsMost S r fs this
  | _, .enum vs, _, x => 8 + match vs.find? (fun v => v.existsAt r && v.ident == x.variant) with
    | none => 0
    | some v => fieldsMost S r v.fields x.fields
  | _, .foreign _, F, a => F a

/-- `F` is what values of types with impls written by hand take at most. `lim` says whether what takes 4 GiB may be
refused. -/
def Body.MostOf (lim : Bool) {k : Kind} (F : k.values (DynAt K n) → Nat) (b : Body K k) : Prop :=
  match b with
  | .foreign x => ∀ a, x.codec.valid a → (lim = true → F a < 2 ^ 32) → ∃ b, x.codec.enc a = .ok b ∧ b.length ≤ F a
  | _ => True

/-- The macro accepts the enum. -/
def Body.Accepted (e : Entry) : {k : Kind} → Body K k → Prop
  | _, .enum vs => AcceptedSigs e (vs.map Variant.sig)
  | _, _ => True

end

/-- The most bytes a value of the program takes. -/
def Program.most (P : Program ι) (F : (n : Nat) → (i : ι) → Values P.kind (n + 1) i → Nat) :
    (n : Nat) → (i : ι) → Values P.kind n i → Nat
  | 0, _, v => nomatch v
  | n + 1, i, v => (P.body i).most (P.most F n) (P.current i) (F n i) v

/-- A program of accepted declarations, with `F` bounding what types with impls written by hand take. -/
structure Program.Bounded (P : Program ι) (lim : Bool) (F : (n : Nat) → (i : ι) → Values P.kind (n + 1) i → Nat) :
    Prop where
  history : ∀ i, ValidHistory (P.history i)
  accepted : ∀ i, (P.body i).Accepted (lastEntry (P.history i))
  foreign : ∀ n i, (P.body i).MostOf (n := n) lim (F n i)

end Revision
