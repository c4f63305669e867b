import Verif.Spec.Program

/-!
# Two versions of a program

The writer is the program as it stood at `s`, the reader the program as it stood at `r`; neither need be the older:
each type has its own revision in both.
-/

namespace Revision

variable {ι : Type}

/-- The impls of the type are generated: its data begins with its revision. -/
def Kind.derived : Kind → Bool
  | .struct | .enum => true
  | .foreign _ => false

/-- The writer's revision of the type is later than the reader's. -/
def Program.Newer (P : Program ι) (s r : ι → Nat) (i : ι) : Prop := (P.kind i).derived = true ∧ r i < s i

instance (P : Program ι) (s r : ι → Nat) (i : ι) : Decidable (P.Newer s r i) := inferInstanceAs (Decidable (_ ∧ _))

/-- Both are versions of one program, and where a type of the reader is not behind the writer's it is `Readable`. -/
structure Program.Exchanges (cfg : Cfg) (P : Program ι) (s r : ι → Nat) : Prop where
  history : ∀ i, ValidHistory (P.history i)
  writer : ∀ i, 1 ≤ s i ∧ s i ≤ (P.history i).length
  reader : ∀ i, 1 ≤ r i ∧ r i ≤ (P.history i).length
  body : ∀ i, s i ≤ r i → ((P.body i).asOf (r i)).Readable cfg (P.entryAt s i) (r i)

/-- What the program as it stood at `r` makes of a value of type `i` of the program as it stood at `s`: nothing
if the type is newer than the reader knows; else the derived values in it migrate first and then the value itself, to
revision `r i`. -/
def Program.migrateTo [DecidableEq ι] (cfg : Cfg) (P : Program ι) (I I' : Impls P.kind) (s r : ι → Nat) :
    (n m : Nat) → (i : ι) → Values P.kind n i → Option (Values P.kind m i)
  | 0, _, _, v => nomatch v
  | _ + 1, 0, _, _ => none
  | n + 1, m + 1, i, v =>
    if P.Newer s r i then none
    else
      Body.migrate cfg I I' n m ((P.asOf s).codec cfg I n) ((P.asOf r).codec cfg I' m) (P.migrateTo cfg I I' s r n m)
        (P.entryAt s i) (r i) ((P.body i).asOf (r i)) v

/-- Some derived value in a value of a supported type satisfies `p`. -/
def Ty.Holds {X : ι → Type} (p : (i : ι) → X i → Prop) : (t : Ty ι) → t.denote X → Prop
  | .unit, _ | .bool, _ | .int _, _ | .float _, _ | .char, _ | .string, _ | .path, _ | .bytes, _
  | .uuid, _ | .duration, _ | .systemTime, _ | .notNan _, _ => False
  | .option t, v => ∃ a : t.denote X, v = some a ∧ t.Holds p a
  | .result t e, v => (∃ a : t.denote X, v = .ok a ∧ t.Holds p a) ∨ ∃ a : e.denote X, v = .error a ∧ e.Holds p a
  | .bound t, v => ∃ a : t.denote X, (v = .included a ∨ v = .excluded a) ∧ t.Holds p a
  | .wrap t, v => t.Holds p v
  | .pair s t, v => s.Holds p v.1 ∨ t.Holds p v.2
  | .array _ t, l | .vec t, l | .btreeSet t, l | .hashSet t, l | .binaryHeap t, l | .vector t, l =>
    ∃ a : t.denote X, a ∈ (l : List (t.denote X)) ∧ t.Holds p a
  | .btreeMap k t, l | .hashMap k t, l =>
    ∃ a : k.denote X × t.denote X, a ∈ (l : List (k.denote X × t.denote X)) ∧ (k.Holds p a.1 ∨ t.Holds p a.2)
  | .ext i, v => p i v

/-- The values of the fields of a derived value. -/
def Kind.fieldValues : (k : Kind) → k.values V → List V
  | .struct, vs => vs
  | .enum, x => x.fields
  | .foreign _, _ => []

/-- A value of type `i` is, or has somewhere in it, a value of type `j`. -/
def Program.Within (P : Program ι) (j : ι) : (n : Nat) → (i : ι) → Values P.kind n i → Prop
  | 0, _, v => nomatch v
  | n + 1, i, v => i = j ∨ ∃ d : DynAt P.kind n, d ∈ (P.kind i).fieldValues v ∧ d.1.Holds (P.Within j n) d.2

end Revision
