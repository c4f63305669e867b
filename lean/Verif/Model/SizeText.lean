import Verif.Model.Schema

/-!
# The text of `size = "..."`

`parse_variant_size`, `/repo/revision-derive/src/ast/attributes.rs:835-856`, with the functions of the standard
library it calls, over lists of characters.
-/

namespace Revision

/-- `char::is_whitespace` of the standard library: the Unicode property `White_Space`:
in `/repo/revision-derive/src/ast/attributes.rs:838`, `:849`. -/
def isSpace (c : Char) : Bool :=
  (9 ≤ c.toNat && c.toNat ≤ 13) || c.toNat = 32 || c.toNat = 0x85 || c.toNat = 0xA0 || c.toNat = 0x1680 ||
    (0x2000 ≤ c.toNat && c.toNat ≤ 0x200A) || c.toNat = 0x2028 || c.toNat = 0x2029 || c.toNat = 0x202F ||
    c.toNat = 0x205F || c.toNat = 0x3000

/-- `str::trim`: in `/repo/revision-derive/src/ast/attributes.rs:838`, `:849`. -/
def trimText (s : List Char) : List Char :=
  ((s.dropWhile isSpace).reverse.dropWhile isSpace).reverse

/-- `str::strip_prefix`: in `/repo/revision-derive/src/ast/attributes.rs:845`. -/
def stripPrefix : List Char → List Char → Option (List Char)
  | [], s => some s
  | _ :: _, [] => none
  | p :: ps, c :: s => if p = c then stripPrefix ps s else none

/-- `str::strip_suffix` for one character: in `/repo/revision-derive/src/ast/attributes.rs:846`. -/
def stripSuffix (c : Char) (s : List Char) : Option (List Char) :=
  if s.getLast? = some c then some s.dropLast else none

/-- The digits loop of `u8::from_str`: `checked_mul(10)`, `checked_add(digit)`:
in `/repo/revision-derive/src/ast/attributes.rs:848-851`. -/
def u8Digits : Nat → List Char → Option Nat
  | acc, [] => some acc
  | acc, c :: s =>
    if 48 ≤ c.toNat ∧ c.toNat ≤ 57 then
      if acc * 10 < 256 ∧ acc * 10 + (c.toNat - 48) < 256 then u8Digits (acc * 10 + (c.toNat - 48)) s
      else none
    else none

/-- `u8::from_str`: nothing is not a number, a leading `+` is allowed if something follows:
in `/repo/revision-derive/src/ast/attributes.rs:848-851`. -/
def u8FromStr : List Char → Option Nat
  | [] => none
  | ['+'] => none
  | '+' :: s => u8Digits 0 s
  | s => u8Digits 0 s

/-- Models `parse_variant_size`, `/repo/revision-derive/src/ast/attributes.rs:835-856`.  `none` is the error. -/
def parseVariantSize (raw : List Char) : Option VariantSize :=
  let s := trimText raw
  if s = "inline".toList then some .inline
  else if s = "varlen".toList then some .varlen
  else match stripPrefix "fixed(".toList s with
    | none => none
    | some rest => match stripSuffix ')' rest with
      | none => none
      | some num => (u8FromStr (trimText num)).map .fixed

end Revision
