import Verif.Model.Prim

/-! # Specification of the integer formats, independent of the bit tricks in the code -/

namespace Revision

/-- The mathematical zigzag map: `0, -1, 1, -2, 2, ...` to `0, 1, 2, 3, 4, ...`. -/
def zigzagSpec (i : Int) : Nat := if 0 ≤ i then (2 * i).toNat else (-2 * i - 1).toNat

/-- Inverse of `zigzagSpec`. -/
def gazgizSpec (n : Nat) : Int := if n % 2 = 0 then (n / 2 : Nat) else -(n / 2 : Nat) - 1

/-- The documented size of the variable-length encoding of `n`. -/
def varintSize (n : Nat) : Nat :=
  if n < 251 then 1
  else if n < 2 ^ 16 then 3
  else if n < 2 ^ 32 then 5
  else if n < 2 ^ 64 then 9
  else 17

namespace IntTy

/-- The integer types with a variable-length encoding (all but the single-byte ones). -/
def IsVar (k : IntTy) : Prop := k ≠ .u8 ∧ k ≠ .i8

instance (k : IntTy) : Decidable k.IsVar := inferInstanceAs (Decidable (_ ∧ _))

/-- `i` is representable in type `k`. -/
def InRange (k : IntTy) (i : Int) : Prop :=
  if k.signed then -(2 ^ (k.bits - 1) : Int) ≤ i ∧ i < 2 ^ (k.bits - 1)
  else 0 ≤ i ∧ i < 2 ^ k.bits

/-- The natural number written on the wire for the integer `i` of type `k`. -/
def wireNat (k : IntTy) (i : Int) : Nat := if k.signed then zigzagSpec i else i.toNat

end IntTy
end Revision
