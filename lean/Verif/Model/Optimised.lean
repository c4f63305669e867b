import Verif.Spec.Slice
import Verif.Model.Walk
import Verif.Model.BytesOrd

/-!
# Optimised wire format: tags, envelopes, offset-table validation

Models `/repo/src/optimised/{tag,envelope,validation}.rs`.
-/

namespace Revision

/-! ### Tags -/

/-- Models `enum SizeClass`, `/repo/src/optimised/tag.rs:34-42`. -/
inductive SizeClass where
  | inline | fixed | varlen
  deriving DecidableEq, Repr

/-- Models `SizeClass::to_bits`, `/repo/src/optimised/tag.rs:45-52`. -/
def SizeClass.toBits : SizeClass → UInt8
  | .inline => 0
  | .fixed => 1
  | .varlen => 2

/-- Models `SizeClass::from_bits`, `/repo/src/optimised/tag.rs:54-62`. -/
def SizeClass.fromBits (b : UInt8) : Option SizeClass :=
  if b = 0 then some .inline
  else if b = 1 then some .fixed
  else if b = 2 then some .varlen
  else none

/-- Models `struct Tag(u8)`, `/repo/src/optimised/tag.rs:67`. -/
abbrev Tag := UInt8

namespace Tag

/-- Models `Tag::new`, `/repo/src/optimised/tag.rs:75-79`, as in a release build: an id of 32 or
more is cut to five bits (a debug build panics). -/
def new (id : UInt8) (sc : SizeClass) : Tag := (id &&& (0b00011111 : UInt8)) ||| (sc.toBits <<< 5)

/-- Models `Tag::variant_id`, `/repo/src/optimised/tag.rs:83-85`. -/
def variantId (t : Tag) : UInt8 := t &&& (0b00011111 : UInt8)

/-- Models `Tag::size_class`, `/repo/src/optimised/tag.rs:89-94`. -/
def sizeClass (t : Tag) : Res SizeClass :=
  match SizeClass.fromBits ((t &&& (0b01100000 : UInt8)) >>> 5) with
  | some sc => .ok sc
  | none => .err (.invalidTag t)

/-- Models `Tag::is_extended`, `/repo/src/optimised/tag.rs:98-100`. -/
def isExtended (t : Tag) : Bool := t &&& (0b10000000 : UInt8) != 0

end Tag

/-! ### Envelopes -/

/-- Models `encode_inline`, `/repo/src/optimised/envelope.rs:15-17`, and `write_tag`,
`/repo/src/optimised/tag.rs:112-114`. -/
def encodeInline (id : UInt8) : Bytes := [Tag.new id .inline]

/-- Models `encode_fixed`, `/repo/src/optimised/envelope.rs:25-31`. -/
def encodeFixed (id : UInt8) (body : Res Bytes) : Res Bytes := do
  let b ← body
  pure (Tag.new id .fixed :: b)

/-- Models `encode_varlen`, `/repo/src/optimised/envelope.rs:40-54`. -/
def encodeVarlen (id : UInt8) (body : Res Bytes) : Res Bytes := do
  let scratch ← body
  if scratch.length < 2 ^ 32 then
    .ok (Tag.new id .varlen :: (leBytes 4 scratch.length ++ scratch))
  else .err .serialize

/-- Models `read_optimised_tag`, `/repo/src/optimised/envelope.rs:58-62`, and `read_tag`,
`/repo/src/optimised/tag.rs:104-108`. -/
def readOptimisedTag : Rd (Tag × SizeClass) := do
  let tag ← Rd.readByte
  let sc ← Rd.lift (Tag.sizeClass tag)
  pure (tag, sc)

/-- `u32::from_le_bytes` of the next four bytes.  Models `read_varlen_len`,
`/repo/src/optimised/envelope.rs:68-72`. -/
def readVarlenLen : Rd Nat := do
  let b ← Rd.readExact 4
  pure (leVal b)

/-- Models `read_varlen_slice`, `/repo/src/optimised/envelope.rs:80-83`, with `read_borrowed_bytes`,
`/repo/src/slice_reader.rs:365-381`: peek, then advance. -/
def readVarlenSlice : Rd Bytes := do
  let len ← readVarlenLen
  let b ← Rd.peek len
  Rd.advance len
  pure b

/-- Models `skip_varlen`, `/repo/src/optimised/envelope.rs:88-91`. -/
def skipVarlen : Rd Unit := do
  let len ← readVarlenLen
  Rd.advance len

/-- Models `skip_varlen_borrowed`, `/repo/src/optimised/envelope.rs:96-99`. -/
def skipVarlenBorrowed : Rd Unit := do
  let len ← readVarlenLen
  Rd.consume len

/-! ### Machine arithmetic and slicing -/

/-- `a + b` on `usize`, on a 64-bit machine, in a build with overflow checks.  Without them it wraps: the walkers
then slice backwards and panic all the same (`C129_map_walker`, `C129_seq_walker`), readers of indexed
maps go on (`C129_read_map_false`): as in `/repo/src/optimised/indexed/map_walk.rs:198-202`. -/
def addU (a b : Nat) : Res Nat := if a + b < 2 ^ 64 then .ok (a + b) else .panic

/-- `a.checked_mul(b).ok_or(e)?` on `usize`: as in `/repo/src/optimised/indexed/map_walk.rs:181`. -/
def checkedMul (a b : Nat) (e : Err) : Res Nat := if a * b < 2 ^ 64 then .ok (a * b) else .err e

/-- `&b[start..stop]`: panics when out of range: as in `/repo/src/optimised/indexed/map_walk.rs:199-215`. -/
def sliceR (b : Bytes) (start stop : Nat) : Res Bytes :=
  if start ≤ stop ∧ stop ≤ b.length then .ok (slice b start stop) else .panic

/-- `b.get(start..stop)`: as in `/repo/src/optimised/indexed/map_walk.rs:281-282`, `:350-352`. -/
def getR (b : Bytes) (start stop : Nat) : Option Bytes :=
  if start ≤ stop ∧ stop ≤ b.length then some (slice b start stop) else none

/-! ### Offset tables -/

/-- Models `decode_u32_le_at`, `/repo/src/optimised/validation.rs:19-26`: an out-of-range index
panics. -/
def decodeU32At (b : Bytes) (off : Nat) : Res Nat := do
  let x ← sliceR b off (off + 4)
  pure (leVal x)

/-- The loop of `validate_struct_prologue`, `/repo/src/optimised/validation.rs:44-58`: entries
`i, i + 1, …`, `n` of them, `last` the previous offset. -/
def validateLoop (table : Bytes) (stride payloadLen : Nat) : Nat → Nat → Option Nat → Res Unit
  | 0, _, _ => .ok ()
  | n + 1, i, last => do
    let o ← decodeU32At table (i * stride)
    if o > payloadLen then .err (.offsetOutOfRange o payloadLen)
    else match last with
      | some prev =>
        if o ≤ prev then .err .offsetsNonMonotonic
        else validateLoop table stride payloadLen n (i + 1) (some o)
      | none => validateLoop table stride payloadLen n (i + 1) (some o)

/-- Models `validate_struct_prologue`, `/repo/src/optimised/validation.rs:37-60`. -/
def validateStructPrologue (table : Bytes) (count stride payloadLen : Nat) : Res Unit :=
  validateLoop table stride payloadLen count 0 none

/-- Models `validate_map_prologue`, `/repo/src/optimised/validation.rs:68-85`.  `&offset_table[4..]`
panics on an empty table. -/
def validateMapPrologue (table : Bytes) (count keysLen valsLen : Nat) : Res Unit := do
  if table.length ≠ min (count * 8) (2 ^ 64 - 1) then .err .offsetsNonMonotonic
  else do
    validateStructPrologue table count 8 keysLen
    let t4 ← sliceR table 4 table.length
    validateStructPrologue t4 count 8 valsLen

/-- The loop of `validate_key_region_ascending`, `/repo/src/optimised/validation.rs:108-122`. -/
def ascLoop (keys table : Bytes) (count : Nat) : Nat → Nat → Nat → Nat → Res Unit
  | 0, _, _, _ => .ok ()
  | n + 1, i, prevStart, currStart => do
    let currEnd ← if i + 1 < count then decodeU32At table ((i + 1) * 8) else .ok keys.length
    let prev ← sliceR keys prevStart currStart
    let curr ← sliceR keys currStart currEnd
    if (cmpBytes curr prev).isLE then .err .keysNotAscending
    else ascLoop keys table count n (i + 1) currStart currEnd

/-- Models `validate_key_region_ascending`, `/repo/src/optimised/validation.rs:94-124`. -/
def validateKeyRegionAscending (keys table : Bytes) (count : Nat) : Res Unit := do
  if count < 2 then .ok ()
  else do
    let prevStart ← decodeU32At table 0
    let currStart ← decodeU32At table 8
    ascLoop keys table count (count - 1) 1 prevStart currStart

/-- Models `validate_seq_prologue`, `/repo/src/optimised/validation.rs:132-138`. -/
def validateSeqPrologue (table : Bytes) (count payloadLen : Nat) : Res Unit :=
  validateStructPrologue table count 4 payloadLen

/-! ### Indexed structs -/

/-- Models `struct IndexedStructWalker`, `/repo/src/optimised/indexed/struct_walk.rs:56-60`. -/
structure IndexedStructWalker where
  payload : Bytes
  fieldCount : Nat
  revision : Nat
  deriving DecidableEq, Repr

namespace IndexedStructWalker

/-- Models `IndexedStructWalker::from_payload`,
`/repo/src/optimised/indexed/struct_walk.rs:71-93`. `payload.len() as u32` truncates. -/
def fromPayload (payload : Bytes) (revision fieldCount : Nat) : Res IndexedStructWalker := do
  let prologueBytes := fieldCount * 4
  if payload.length < prologueBytes then .err .overrun
  else do
    let table ← sliceR payload 0 prologueBytes
    validateStructPrologue table fieldCount 4 (payload.length % 2 ^ 32)
    if 0 < fieldCount then do
      let first ← decodeU32At payload 0
      if first < prologueBytes then .err (.offsetOutOfRange first prologueBytes)
      else .ok ⟨payload, fieldCount, revision⟩
    else .ok ⟨payload, fieldCount, revision⟩

/-- Models `IndexedStructWalker::from_payload_unvalidated`,
`/repo/src/optimised/indexed/struct_walk.rs:137-151`. -/
def fromPayloadUnvalidated (payload : Bytes) (revision fieldCount : Nat) :
    Res IndexedStructWalker :=
  if payload.length < fieldCount * 4 then .err .overrun
  else .ok ⟨payload, fieldCount, revision⟩

/-- Models `IndexedStructWalker::offset`, `/repo/src/optimised/indexed/struct_walk.rs:197-201`. -/
def offset (w : IndexedStructWalker) (i : Nat) : Res Nat := decodeU32At w.payload (i * 4)

/-- Models `IndexedStructWalker::field_bytes`,
`/repo/src/optimised/indexed/struct_walk.rs:166-181`. -/
def fieldBytes (w : IndexedStructWalker) (i : Nat) : Res Bytes := do
  if i ≥ w.fieldCount then .err .deserialize
  else do
    let start ← w.offset i
    let stop ← if i + 1 < w.fieldCount then w.offset (i + 1) else .ok w.payload.length
    sliceR w.payload start stop

/-- Models `IndexedStructWalker::decode_field`,
`/repo/src/optimised/indexed/struct_walk.rs:184-187`: bytes left over are ignored. -/
def decodeField (w : IndexedStructWalker) (c : Codec α) (i : Nat) : Res α := do
  let b ← w.fieldBytes i
  c.fromSlice b

end IndexedStructWalker

end Revision
