import Verif.Spec.DeriveWalk
import Verif.Spec.WireIndexed

/-! What the walkers of derived enums hand out. -/

namespace Revision

variable {V : Type}

namespace Wire

/-- The number of a kind of payload in a tag: none, of declared size, of stored size. -/
def kind : VariantSize → Nat
  | .inline => 0
  | .fixed _ => 1
  | .varlen => 2

/-- The payload of a variant of an optimised enum: nothing, the declared number of bytes, or the
number of bytes in four bytes and the bytes. -/
inductive Payload : VariantSize → Bytes → Bytes → Prop
  | inline : Payload .inline [] []
  | fixed {n : Nat} {body : Bytes} : body.length = n → Payload (.fixed n) body body
  | varlen {body : Bytes} : body.length < 2 ^ 32 → Payload .varlen body (le 4 body.length ++ body)

/-- An optimised enum value after the revision header: a byte with the discriminant in its low five
bits and the kind of payload in the next two, and the payload.  The top bit is not looked at
(`C31_reserved_bit_false`). -/
def Tagged (d : Nat) (size : VariantSize) (body out : Bytes) : Prop :=
  ∃ (tag : UInt8) (p : Bytes), tag.toNat % 128 = d + 32 * kind size ∧ Payload size body p ∧ out = tag :: p

end Wire

/-- Walk an enum and call a method of the walker. -/
def walkThen (cfg : Cfg) (h : List Entry) (vs : List (VariantDecl V)) (call : EnumRepr → Rd α) : Rd α := do
  let w ← walkEnum cfg h vs
  call w

end Revision
