import Verif.Model.WorkDerive
import Verif.Spec.Alloc
import Verif.Spec.Exchange

/-! # How many steps reading may take -/

namespace Revision

/-- The counted readers, without the counts, are the readers. -/
structure Counted.Counts (x : Counted α) (c : Codec α) : Prop where
  dec : x.dec.erase = c.dec
  skip : x.skip.erase = c.skip
  skipS : x.skipS.erase = c.skipS
  check : x.check.erase = c.check

/-- At most `a` steps and `b` for each byte of the input; and if the reader succeeds, for each byte it took. -/
def Ct.Linear (a b : Nat) (m : Ct α) : Prop :=
  ∀ s, m.steps s ≤ a + b * s.length ∧ ∀ v r, m.erase s = .ok (v, r) → m.steps s ≤ a + b * (s.length - r.length)

/-- So do all four readers. -/
structure Counted.Linear (a b : Nat) (x : Counted α) : Prop where
  dec : x.dec.Linear a b
  skip : x.skip.Linear a b
  skipS : x.skipS.Linear a b
  check : x.check.Linear a b

/-- A reader that succeeds has taken at least one byte. -/
def Rd.TakesByte (m : Rd α) : Prop := ∀ s v r, m s = .ok (v, r) → r.length < s.length

/-- So for all four readers of a type. -/
structure Codec.Weighty (c : Codec α) : Prop where
  dec : c.dec.TakesByte
  skip : c.skip.TakesByte
  skipS : c.skipS.TakesByte
  check : c.check.TakesByte

variable {ι : Type}

/-- The calls it takes to read a value, not counting those behind a tag or a length prefix and those made by further types. -/
def Ty.breadth : Ty ι → Nat
  | .wrap t => 1 + t.breadth
  | .pair s t => 1 + s.breadth + t.breadth
  | .array n t => 1 + n * t.breadth
  | _ => 1

/-- The largest such number of the type, the types in it, and the entries of the maps in it. -/
def Ty.widest : Ty ι → Nat
  | .option t | .bound t | .vec t | .btreeSet t | .hashSet t | .binaryHeap t | .vector t => t.widest
  | .result s t => max s.widest t.widest
  | .btreeMap k v | .hashMap k v => max (k.breadth + v.breadth) (max k.widest v.widest)
  | .wrap t => max (Ty.wrap t).breadth t.widest
  | .array n t => max (Ty.array n t).breadth t.widest
  | .pair s t => max (Ty.pair s t).breadth (max s.widest t.widest)
  | _ => 1

/-- How many values a value consists of, itself included; `nx` says so for the further types. -/
def Ty.nodes (X : ι → Type) (nx : (i : ι) → X i → Nat) : (t : Ty ι) → t.denote X → Nat
  | .option t, v => 1 + match v with
    | none => 0
    | some a => t.nodes X nx a
  | .result s t, v => 1 + match v with
    | .ok a => s.nodes X nx a
    | .error e => t.nodes X nx e
  | .bound t, v => 1 + match v with
    | .unbounded => 0
    | .included a | .excluded a => t.nodes X nx a
  | .wrap t, v => 1 + t.nodes X nx v
  | .pair s t, v => 1 + s.nodes X nx v.1 + t.nodes X nx v.2
  | .array _ t, l | .vec t, l | .btreeSet t, l | .hashSet t, l | .binaryHeap t, l | .vector t, l =>
    1 + (l.map fun a => t.nodes X nx a).sum
  | .btreeMap k v, l | .hashMap k v, l => 1 + (l.map fun p => k.nodes X nx p.1 + v.nodes X nx p.2).sum
  | .ext i, v => nx i v
  | .unit, _ | .bool, _ | .int _, _ | .float _, _ | .char, _ | .string, _ | .path, _ | .bytes, _ | .uuid, _ | .duration, _
  | .systemTime, _ | .notNan _, _ => 1

/-- How many values a value of a derived type consists of, itself included: those of its fields, at any depth. -/
def Values.nodes (K : ι → Kind) : (n : Nat) → (i : ι) → Values K n i → Nat
  | 0, _, v => nomatch v
  | n + 1, i, v => 1 + (((K i).fieldValues (V := DynAt K n) v).map fun d => d.1.nodes (Values K n) (Values.nodes K n) d.2).sum

/-- Reading a serialised value, whatever follows it, takes as many steps as `nodes` says, and skipping it no more. -/
structure Counted.Exact (x : Counted α) (c : Codec α) (nodes : α → Nat) : Prop where
  dec : ∀ v b, c.valid v → c.enc v = .ok b → ∀ t, x.dec.steps (b ++ t) = nodes v
  skip : ∀ v b, c.valid v → c.enc v = .ok b → ∀ t, x.skip.steps (b ++ t) ≤ nodes v
  skipS : ∀ v b, c.valid v → c.enc v = .ok b → ∀ t, x.skipS.steps (b ++ t) ≤ nodes v

/-- The calls it takes to read some fields, not counting those behind a tag or a length prefix. -/
def fieldsBreadth {K : ι → Kind} (fs : List (Field K)) : Nat := (fs.map fun f => f.ty.breadth).sum

/-- A bound on the calls it takes to read the fields of a value of the type, and on the width of the types in them. -/
def Body.Within {K : ι → Kind} (D : Nat) : {k : Kind} → Body K k → Prop
  | _, .struct fs => fieldsBreadth fs ≤ D ∧ ∀ f ∈ fs, f.ty.widest ≤ D
  | _, .enum vs => ∀ v ∈ vs, fieldsBreadth v.fields ≤ D ∧ ∀ f ∈ v.fields, f.ty.widest ≤ D
  | _, .foreign i => i.codec.Weighty

end Revision
