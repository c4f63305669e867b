import Verif.Spec.Work

/-! # How many bytes reading may copy -/

namespace Revision

variable {ι : Type}

/-- The further types a type is made of. -/
def Ty.refs : Ty ι → List ι
  | .option t | .bound t | .wrap t | .array _ t | .vec t | .btreeSet t | .hashSet t | .binaryHeap t | .vector t => t.refs
  | .result s t | .pair s t | .btreeMap s t | .hashMap s t => s.refs ++ t.refs
  | .ext i => [i]
  | _ => []

/-- The types the fields of a type of the program are made of, in any revision. -/
def Program.refs (P : Program ι) (i : ι) : List ι := (P.body i).types.flatMap Ty.refs

/-- Whether some revision of the type is optimised. -/
def Program.framed (P : Program ι) (i : ι) : Bool := (P.history i).any (·.optimised)

/-- The most optimised types around each other in a value of the type whose nesting is at most `n`. -/
def Program.layers (P : Program ι) : Nat → ι → Nat
  | 0, _ => 0
  | n + 1, i => (if P.framed i then 1 else 0) + ((P.refs i).map (P.layers n)).foldr max 0

variable [DecidableEq ι]

/-- The readers of a type of the program, counting the bytes copied into buffers before they are read. -/
abbrev Program.copying (cfg : Cfg) (P : Program ι) (I : Impls P.kind) (n : Nat) (i : ι) : Counted (Values P.kind n i) :=
  letI := Tariff.copies
  P.counted cfg I n i

end Revision
