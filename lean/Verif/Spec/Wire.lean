import Verif.Model.Ty
import Verif.Spec.Ints

/-!
# The wire format

What the serialised form of every supported type looks like, byte by byte, said without reference to
the code.  The README and the crate documentation promise that stored data stays readable, so the
format itself, and not only the agreement of reader and writer, is part of the contract.
-/

namespace Revision

namespace Wire

/-- `n` in `w` bytes, least significant byte first. -/
def le (w n : Nat) : Bytes := (List.range w).map fun i => UInt8.ofNat (n / 256 ^ i % 256)

/-- The variable-length form of a natural number below `2 ^ 128`: one byte, or a marker byte 251-254
followed by 2, 4, 8 or 16 bytes. -/
def varint (n : Nat) : Bytes :=
  if n < 251 then [UInt8.ofNat n]
  else if n < 2 ^ 16 then 251 :: le 2 n
  else if n < 2 ^ 32 then 252 :: le 4 n
  else if n < 2 ^ 64 then 253 :: le 8 n
  else 254 :: le 16 n

/-- A natural number kept in a `w`-byte integer type. -/
def number (cfg : Cfg) (w n : Nat) : Bytes := if cfg.fixedWidth then le w n else varint n

/-- `body` is the forms of the elements of the list, one after another. -/
inductive Each (R : α → Bytes → Prop) : List α → Bytes → Prop
  | nil : Each R [] []
  | cons {a : α} {l : List α} {x y : Bytes} : R a x → Each R l y → Each R (a :: l) (x ++ y)

/-- One bit per element: element `i` is bit `i % 8` of byte `i / 8`, unused bits are zero. -/
def Packed (l : List Bool) (body : Bytes) : Prop :=
  body.length = (l.length + 7) / 8 ∧
  ∀ i, (body.getD (i / 8) 0).toNat.testBit (i % 8) = l.getD i false

/-- A sequence: the number of elements, then `body`. -/
def Counted (cfg : Cfg) (n : Nat) (Body : Bytes → Prop) (b : Bytes) : Prop :=
  ∃ body, b = number cfg 8 n ++ body ∧ Body body

end Wire

open Wire

/-- The elements of a `Vec`, after the count.  With specialised vectors, booleans are packed and
fixed-width numbers are raw little-endian two's complement; everything else is in its own form. -/
def Ty.WireElems (cfg : Cfg) (E : Env ι) :
    (t : Ty ι) → (t.denote E.X → Bytes → Prop) → List (t.denote E.X) → Bytes → Prop
  | .bool, R, l => if cfg.specialised then Packed l else Each R l
  | .int k, R, l =>
    if cfg.specialised ∧ k ≠ .usize ∧ k ≠ .isize then
      Each (fun v x => x = le (k.bits / 8) v.toNat) l
    else Each R l
  | .float f, R, l => if cfg.specialised then Each (fun v x => x = le f.bytes v.toNat) l else Each R l
  | .uuid, R, l => if cfg.specialised then Each (fun v x => x = le 16 v.toNat) l else Each R l
  | _, R, l => Each R l

/-- `t.Wire cfg E v b`: the bytes `b` are the serialised form of the value `v` of type `t`. -/
def Ty.Wire (cfg : Cfg) (E : Env ι) : (t : Ty ι) → t.denote E.X → Bytes → Prop
  | .unit, _, b => b = []
  | .bool, v, b => b = [if v then 1 else 0]
  -- single bytes are kept as they are; other integers as a natural number, signed ones zigzagged
  | .int k, v, b =>
    if k = .u8 ∨ k = .i8 then b = le 1 v.toNat
    else b = number cfg (k.bits / 8) (k.wireNat (k.value v))
  | .float f, v, b => b = le f.bytes v.toNat
  | .notNan f, v, b => b = le f.bytes v.toNat
  | .uuid, v, b => b = le 16 v.toNat
  | .char, c, b => b = String.utf8EncodeChar c
  | .string, s, b => Counted cfg s.toByteArray.size (· = s.toByteArray.data.toList) b
  | .path, p, b | .bytes, p, b => Counted cfg p.length (· = p) b
  -- seconds, then nanoseconds
  | .duration, d, b | .systemTime, d, b => b = number cfg 8 d.1.toNat ++ number cfg 4 d.2.toNat
  -- a tag, then the payload
  | .option _, none, b => b = [0]
  | .option t, some a, b => ∃ x, b = 1 :: x ∧ t.Wire cfg E a x
  | .result t _, .ok a, b => ∃ x, b = number cfg 4 0 ++ x ∧ t.Wire cfg E a x
  | .result _ e, .error a, b => ∃ x, b = number cfg 4 1 ++ x ∧ e.Wire cfg E a x
  | .bound _, .unbounded, b => b = number cfg 4 0
  | .bound t, .included a, b => ∃ x, b = number cfg 4 1 ++ x ∧ t.Wire cfg E a x
  | .bound t, .excluded a, b => ∃ x, b = number cfg 4 2 ++ x ∧ t.Wire cfg E a x
  -- no delimiters
  | .wrap t, v, b => t.Wire cfg E v b
  | .pair s t, v, b => ∃ x y, b = x ++ y ∧ s.Wire cfg E v.1 x ∧ t.Wire cfg E v.2 y
  | .array _ t, l, b => Each (t.Wire cfg E) l b
  -- the number of elements, then the elements
  | .vec t, l, b => Counted cfg l.length (t.WireElems cfg E (t.Wire cfg E) l) b
  | .btreeMap k v, l, b | .hashMap k v, l, b =>
    Counted cfg l.length
      (Each (fun e x => ∃ y z, x = y ++ z ∧ k.Wire cfg E e.1 y ∧ v.Wire cfg E e.2 z) l) b
  | .btreeSet t, l, b | .hashSet t, l, b | .binaryHeap t, l, b | .vector t, l, b =>
    Counted cfg l.length (Each (t.Wire cfg E) l) b
  | .ext i, v, b => (E.extC i).enc v = .ok b

end Revision
