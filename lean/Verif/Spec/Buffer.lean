import Verif.Model.Buffer
import Verif.Spec.Copy
import Verif.Spec.DeriveIo

/-! # How many bytes serialising may buffer -/

namespace Revision

variable {ι : Type}

/-- The most buffers around a byte of a field written at entry `e`, given those around the further types: one if the elements of the
field are written to buffers of their own. -/
def Field.buffers {K : ι → Kind} (e : Entry) (w : ι → Nat) (f : Field K) : Nat :=
  (if e.optimised && f.isIndexed then 1 else 0) + (f.ty.refs.map w).foldr max 0

/-- The most buffers around a byte of a value of the type whose nesting is at most `n`: one for each optimised type, and for each
indexed collection. -/
def Program.buffers (P : Program ι) : Nat → ι → Nat
  | 0, _ => 0
  | n + 1, i =>
    let e := lastEntry (P.history i)
    (if e.optimised then 1 else 0) + (((P.body i).fieldsAt e.revision).map (Field.buffers e (P.buffers n))).foldr max 0

section
variable [DecidableEq ι] (cfg : Cfg) (P : Program ι) (I : Impls P.kind) (n : Nat) (t : Ty ι)

/-- The serialiser of a type whose further types are those of the program. -/
abbrev Program.encTy : t.denote (Values P.kind n) → Res Bytes := (t.codec cfg (I.env n (P.codec cfg I n))).enc

/-- The same, counting. -/
abbrev Program.bufferedTy : t.denote (Values P.kind n) → Bf Bytes := t.buffered cfg (I.env n (P.codec cfg I n)) (P.buffered cfg I n)

/-- The serialiser of a field declared an indexed collection, counting. -/
abbrev Program.bufferedCollection : t.denote (Values P.kind n) → Bf Bytes :=
  bufferedIndexed cfg (I.env n (P.codec cfg I n)) (P.buffered cfg I n) t

end

end Revision
