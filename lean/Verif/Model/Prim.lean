import Verif.Model.Codec

/-!
# Integers, `bool`, floats

Models `/repo/src/implementations/primitives.rs`.  A Rust integer of `w` bits is a
`BitVec w`; signed types use two's complement, as in Rust.
-/

namespace Revision

/-- Rust's integer types.  `usize` and `isize` are 64 bits wide: `/repo/src/implementations/primitives.rs:170-593`. -/
inductive IntTy where
  | u8 | i8 | u16 | i16 | u32 | i32 | u64 | i64 | u128 | i128 | usize | isize
  deriving DecidableEq, Repr

namespace IntTy

/-- Width in bits: `/repo/src/implementations/primitives.rs:170-593`. -/
@[reducible] def bits : IntTy → Nat
  | u8 | i8 => 8
  | u16 | i16 => 16
  | u32 | i32 => 32
  | u64 | i64 | usize | isize => 64
  | u128 | i128 => 128

/-- Signedness: `/repo/src/implementations/primitives.rs:170-593`. -/
def signed : IntTy → Bool
  | i8 | i16 | i32 | i64 | i128 | isize => true
  | _ => false

/-- The mathematical integer a bit pattern of this type stands for:
the value behind `/repo/src/implementations/primitives.rs:170-593`. -/
def value (k : IntTy) (v : BitVec k.bits) : Int :=
  if k.signed then v.toInt else v.toNat

end IntTy

/-- Models `zigzag_64` and `zigzag_128`,
`/repo/src/implementations/primitives.rs:13-16` and `:23-26` (`w` = 64, 128). -/
def zigzag {w : Nat} (v : BitVec w) : BitVec w :=
  v.sshiftRight (w - 1) ^^^ (v <<< 1)

/-- Models `gazgiz_64` and `gazgiz_128`,
`/repo/src/implementations/primitives.rs:18-21` and `:28-31`. -/
def gazgiz {w : Nat} (v : BitVec w) : BitVec w :=
  (v >>> 1) ^^^ (-(v &&& 1#w))

/-- Models `encode_u64`, `/repo/src/implementations/primitives.rs:35-55`. -/
def encodeU64 (i : BitVec 64) : Bytes :=
  if i.toNat < 251 then [UInt8.ofNat i.toNat]
  else if i.toNat < 2 ^ 16 then 251 :: leBytes 2 i.toNat
  else if i.toNat < 2 ^ 32 then 252 :: leBytes 4 i.toNat
  else 253 :: leBytes 8 i.toNat

/-- Models `encode_u128`, `/repo/src/implementations/primitives.rs:58-85`. -/
def encodeU128 (i : BitVec 128) : Bytes :=
  if i.toNat < 251 then [UInt8.ofNat i.toNat]
  else if i.toNat < 2 ^ 16 then 251 :: leBytes 2 i.toNat
  else if i.toNat < 2 ^ 32 then 252 :: leBytes 4 i.toNat
  else if i.toNat < 2 ^ 64 then 253 :: leBytes 8 i.toNat
  else 254 :: leBytes 16 i.toNat

/-- `uN::from_le_bytes(read_buffer::<n, _>(reader)?) as uW`:
`/repo/src/implementations/primitives.rs:7-11`, `:96-106`. -/
def readLE (w n : Nat) : Rd (BitVec w) := do
  let b ← Rd.readExact n
  pure (BitVec.ofNat w (leVal b))

/-- Models `decode_u64`, `/repo/src/implementations/primitives.rs:88-111`. -/
def decodeU64 : Rd (BitVec 64) := do
  let b ← Rd.readByte
  if b = 251 then readLE 64 2
  else if b = 252 then readLE 64 4
  else if b = 253 then readLE 64 8
  else if b = 254 then Rd.fail .integerOverflow
  else if b = 255 then Rd.fail .invalidIntegerEncoding
  else pure (BitVec.ofNat 64 b.toNat)

/-- Models `decode_u128`, `/repo/src/implementations/primitives.rs:114-140`. -/
def decodeU128 : Rd (BitVec 128) := do
  let b ← Rd.readByte
  if b = 251 then readLE 128 2
  else if b = 252 then readLE 128 4
  else if b = 253 then readLE 128 8
  else if b = 254 then readLE 128 16
  else if b = 255 then Rd.fail .invalidIntegerEncoding
  else pure (BitVec.ofNat 128 b.toNat)

/-- `x.try_into().map_err(|_| Error::IntegerOverflow)` from `u64` to an unsigned type of `w` bits:
`/repo/src/implementations/primitives.rs:290`, `:331`. -/
def tryIntoU (w : Nat) (x : BitVec 64) : Res (BitVec w) :=
  if x.toNat < 2 ^ w then .ok (x.setWidth w) else .err .integerOverflow

/-- `x.try_into().map_err(|_| Error::IntegerOverflow)` from `i64` to a signed type of `w` bits:
`/repo/src/implementations/primitives.rs:414`, `:456`. -/
def tryIntoI (w : Nat) (x : BitVec 64) : Res (BitVec w) :=
  if -(2 ^ (w - 1) : Int) ≤ x.toInt ∧ x.toInt < 2 ^ (w - 1) then .ok (x.setWidth w)
  else .err .integerOverflow

/-- `SerializeRevisioned` of every integer type,
`/repo/src/implementations/primitives.rs:170-587` (both sides of each `cfg`). -/
def encInt (cfg : Cfg) : (k : IntTy) → BitVec k.bits → Bytes
  -- :218-224 and :243-249
  | .u8, v => leBytes 1 v.toNat
  | .i8, v => leBytes 1 v.toNat
  -- :267-280, :308-321 and :349-362; `usize` (:170-175) casts to `u64`
  | .u16, v => if cfg.fixedWidth then leBytes 2 v.toNat else encodeU64 (v.setWidth 64)
  | .u32, v => if cfg.fixedWidth then leBytes 4 v.toNat else encodeU64 (v.setWidth 64)
  | .u64, v => if cfg.fixedWidth then leBytes 8 v.toNat else encodeU64 v
  | .usize, v => if cfg.fixedWidth then leBytes 8 v.toNat else encodeU64 v
  -- :556-569
  | .u128, v => if cfg.fixedWidth then leBytes 16 v.toNat else encodeU128 v
  -- :390-403, :432-445: the zigzag value is truncated to the narrow type when fixed
  | .i16, v => if cfg.fixedWidth then leBytes 2 (zigzag (v.signExtend 64)).toNat
               else encodeU64 (zigzag (v.signExtend 64))
  | .i32, v => if cfg.fixedWidth then leBytes 4 (zigzag (v.signExtend 64)).toNat
               else encodeU64 (zigzag (v.signExtend 64))
  -- :474-487; `isize` (:194-199) casts to `i64`
  | .i64, v => if cfg.fixedWidth then leBytes 8 (zigzag v).toNat else encodeU64 (zigzag v)
  | .isize, v => if cfg.fixedWidth then leBytes 8 (zigzag v).toNat else encodeU64 (zigzag v)
  -- :515-528
  | .i128, v => if cfg.fixedWidth then leBytes 16 (zigzag v).toNat else encodeU128 (zigzag v)

/-- `DeserializeRevisioned` of every integer type,
`/repo/src/implementations/primitives.rs:177-587`. -/
def decInt (cfg : Cfg) : (k : IntTy) → Rd (BitVec k.bits)
  -- :226-234 and :251-257
  | .u8 => readLE 8 1
  | .i8 => readLE 8 1
  -- :282-298, :323-339
  | .u16 => if cfg.fixedWidth then readLE 16 2 else do
      let x ← decodeU64
      Rd.lift (tryIntoU 16 x)
  | .u32 => if cfg.fixedWidth then readLE 32 4 else do
      let x ← decodeU64
      Rd.lift (tryIntoU 32 x)
  -- :364-380; `usize` (:177-185)
  | .u64 => if cfg.fixedWidth then readLE 64 8 else decodeU64
  | .usize => if cfg.fixedWidth then readLE 64 8 else decodeU64
  -- :571-587
  | .u128 => if cfg.fixedWidth then readLE 128 16 else decodeU128
  -- :405-422, :447-464
  | .i16 => if cfg.fixedWidth then do
        let x ← readLE 64 2
        pure ((gazgiz x).setWidth 16)
      else do
        let x ← decodeU64
        Rd.lift (tryIntoI 16 (gazgiz x))
  | .i32 => if cfg.fixedWidth then do
        let x ← readLE 64 4
        pure ((gazgiz x).setWidth 32)
      else do
        let x ← decodeU64
        Rd.lift (tryIntoI 32 (gazgiz x))
  -- :489-505; `isize` (:201-209)
  | .i64 => do
      let x ← if cfg.fixedWidth then readLE 64 8 else decodeU64
      pure (gazgiz x)
  | .isize => do
      let x ← if cfg.fixedWidth then readLE 64 8 else decodeU64
      pure (gazgiz x)
  -- :530-546
  | .i128 => do
      let x ← if cfg.fixedWidth then readLE 128 16 else decodeU128
      pure (gazgiz x)

/-- The codec of an integer type; skip and skip_check by `skip_mirror_both!`,
`/repo/src/implementations/skip.rs:37-49`. -/
def intC (cfg : Cfg) (k : IntTy) : Codec (BitVec k.bits) :=
  Codec.mirror (fun _ => True) (fun v => .ok (encInt cfg k v)) (decInt cfg k)

/-- Length prefixes: `len.serialize_revisioned(writer)` for a `usize`:
`/repo/src/implementations/primitives.rs:170-175`. -/
def encLen (cfg : Cfg) (n : Nat) : Bytes := encInt cfg .usize (BitVec.ofNat 64 n)

/-- Length prefixes: `usize::deserialize_revisioned(reader)`: `/repo/src/implementations/primitives.rs:177-185`. -/
def readLen (cfg : Cfg) : Rd Nat := do
  let n ← decInt cfg .usize
  pure n.toNat

/-- `u32` tags of `Result`, `Bound` and enums: `n.serialize_revisioned(writer)`:
`/repo/src/implementations/primitives.rs:308-321`. -/
def encU32 (cfg : Cfg) (n : Nat) : Bytes := encInt cfg .u32 (BitVec.ofNat 32 n)

/-- `u32::deserialize_revisioned(reader)`: `/repo/src/implementations/primitives.rs:323-339`. -/
def readU32 (cfg : Cfg) : Rd Nat := do
  let n ← decInt cfg .u32
  pure n.toNat

/-- `u16` revision headers: `n.serialize_revisioned(writer)`: `/repo/src/implementations/primitives.rs:267-280`. -/
def encU16 (cfg : Cfg) (n : Nat) : Bytes := encInt cfg .u16 (BitVec.ofNat 16 n)

/-- `u16::deserialize_revisioned(reader)`: `/repo/src/implementations/primitives.rs:282-298`. -/
def readU16 (cfg : Cfg) : Rd Nat := do
  let n ← decInt cfg .u16
  pure n.toNat

/-- Models `fixed_le_helpers!`, `/repo/src/implementations/primitives.rs:661-690`:
raw little-endian two's complement, whatever the cargo features.
`n` is the width in bytes (4, 8, 16). -/
def fixedC (n : Nat) : Codec (BitVec (8 * n)) where
  valid := fun _ => True
  enc := fun v => .ok (leBytes n v.toNat)
  dec := readLE (8 * n) n
  skip := (Rd.readExact n).discard
  skipS := (Rd.readExact n).discard
  check := (Rd.readExact n).discard

/-- `bool`, `/repo/src/implementations/primitives.rs:142-161`.
Simplification: the writer accepts the byte (`write` is used, not `write_all`;
a `Vec<u8>` always accepts).  For other writers see `Verif.Model.Sink`. -/
def boolC : Codec Bool :=
  Codec.mirror (fun _ => True)
    (fun v => .ok [if v then 1 else 0])
    (do
      let b ← Rd.readByte
      if b = 0 then pure false
      else if b = 1 then pure true
      else Rd.fail (.invalidBool b))

/-- `f32` (`n = 4`) and `f64` (`n = 8`), `/repo/src/implementations/primitives.rs:596-639`.
A float is its bit pattern (`to_le_bytes`/`from_le_bytes` move the pattern). -/
def floatC (n : Nat) : Codec (BitVec (8 * n)) :=
  Codec.mirror (fun _ => True)
    (fun v => .ok (leBytes n v.toNat))
    (readLE (8 * n) n)

end Revision
