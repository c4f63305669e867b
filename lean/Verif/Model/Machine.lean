import Verif.Model.Program

/-!
# Other machines and builds

The rest of the model is that of a 64-bit machine and a build with overflow checks.  Here are the
parts of the code that depend on either: everything that computes with `usize`, over an arbitrary
machine.  `Machine.host` is the machine of the rest of the model (`C130_host`).

A `usize` or an `isize` of a narrower machine is represented by the 64-bit pattern of the same
number.  What the allocator grants, `cap`, remains a parameter.
-/

namespace Revision

/-- The width of `usize` (`target_pointer_width`) and whether the build has overflow checks
(`-C overflow-checks`, on in debug builds and off in release builds unless the profile says
otherwise; `/repo/Cargo.toml` does not):
what `usize` is in all of `/repo/src`, first in `/repo/src/implementations/primitives.rs:170-191`. -/
structure Machine where
  bits : Nat
  checks : Bool
  deriving DecidableEq, Repr

namespace Machine

/-- A 64-bit machine, debug build: see `Machine`; `/repo/src/implementations/primitives.rs:170-191`. -/
def host : Machine := ⟨64, true⟩

/-- A 64-bit machine, release build: see `Machine`; `/repo/src/implementations/primitives.rs:170-191`. -/
def release : Machine := ⟨64, false⟩

/-- A 32-bit machine (`wasm32`, `i686`, `armv7`): see `Machine`; `/repo/src/implementations/primitives.rs:170-191`. -/
def small (checks : Bool) : Machine := ⟨32, checks⟩

/-- `a + b` on `usize`: on overflow it panics with checks and wraps without:
as in `/repo/src/optimised/indexed/map_walk.rs:198-202`. -/
def add (M : Machine) (a b : Nat) : Res Nat :=
  if a + b < 2 ^ M.bits then .ok (a + b)
  else if M.checks then .panic
  else .ok ((a + b) % 2 ^ M.bits)

/-- `a.checked_mul(b).ok_or(e)?` on `usize`:
as in `/repo/src/optimised/indexed/map_walk.rs:181` and `/repo/src/optimised/indexed/serialize.rs:140`. -/
def checkedMul (M : Machine) (a b : Nat) (e : Err) : Res Nat :=
  if a * b < 2 ^ M.bits then .ok (a * b) else .err e

/-- `a.checked_add(b).ok_or(e)?` on `usize`: as in `/repo/src/optimised/indexed/serialize.rs:842`. -/
def checkedAdd (M : Machine) (a b : Nat) (e : Err) : Res Nat :=
  if a + b < 2 ^ M.bits then .ok (a + b) else .err e

/-- `usize::try_from(v).map_err(|_| Error::IntegerOverflow)`: as in `/repo/src/optimised/indexed/serialize.rs:911`. -/
def tryUsize (M : Machine) (v : Nat) : Res Nat :=
  if v < 2 ^ M.bits then .ok v else .err .integerOverflow

/-! ### Integers -/

/-- `x as usize` from `u64`: the low bits: as in `/repo/src/implementations/primitives.rs:177-185`. -/
def asUsize (M : Machine) (x : BitVec 64) : BitVec 64 := BitVec.ofNat 64 (x.toNat % 2 ^ M.bits)

/-- `x as isize` from `i64`: the low bits, as a signed number:
as in `/repo/src/implementations/primitives.rs:201-209`. -/
def asIsize (M : Machine) (x : BitVec 64) : BitVec 64 := BitVec.ofInt 64 (x.toInt.bmod (2 ^ M.bits))

/-- The integers of a type on this machine: `usize` and `isize` have `M.bits` bits:
`/repo/src/implementations/primitives.rs:170-215`. -/
def hasInt (M : Machine) : (k : IntTy) → BitVec k.bits → Prop
  | .usize, v => v.toNat < 2 ^ M.bits
  | .isize, v => -(2 ^ (M.bits - 1) : Int) ≤ v.toInt ∧ v.toInt < 2 ^ (M.bits - 1)
  | _, _ => True

/-- `DeserializeRevisioned` of every integer type.  `usize`,
`/repo/src/implementations/primitives.rs:177-185`, reads a `u64` and casts it, `isize`, `:201-209`, an
`i64`; the other types do not depend on the machine. -/
def decInt (M : Machine) (cfg : Cfg) : (k : IntTy) → Rd (BitVec k.bits)
  | .usize => do
    let x ← Revision.decInt cfg .u64
    pure (M.asUsize x)
  | .isize => do
    let x ← Revision.decInt cfg .i64
    pure (M.asIsize x)
  | k => Revision.decInt cfg k

/-- The codec of an integer type.  `SerializeRevisioned` of `usize` and `isize` casts to 64 bits
(`/repo/src/implementations/primitives.rs:170-175` and `:194-199`): the number does not change. -/
def intC (M : Machine) (cfg : Cfg) (k : IntTy) : Codec (BitVec k.bits) :=
  Codec.mirror (M.hasInt k) (fun v => .ok (encInt cfg k v)) (M.decInt cfg k)

/-- Length prefixes: `usize::deserialize_revisioned(reader)`: `/repo/src/implementations/primitives.rs:177-185`. -/
def readLen (M : Machine) (cfg : Cfg) : Rd Nat := do
  let n ← M.decInt cfg .usize
  pure n.toNat

/-! ### Bytes and strings -/

/-- `/repo/src/implementations/string.rs:21-34`, `bytes.rs:19-31`, `specialised.rs:146-164`. -/
def readBytes (M : Machine) (cfg : Cfg) (cap : Nat → Bool) : Rd Bytes := do
  let n ← M.readLen cfg
  if n = 0 then pure []
  else do
    Rd.alloc (cap n)
    Rd.readExact n

/-- `/repo/src/implementations/skip.rs:60-64`, `:243-247`, `:866-870`. -/
def skipBytes (M : Machine) (cfg : Cfg) : Rd Unit := do
  let n ← M.readLen cfg
  Rd.advance n

/-- `/repo/src/implementations/skip.rs:66-70`, `:305-309`, `:871-875`. -/
def skipBytesS (M : Machine) (cfg : Cfg) : Rd Unit := do
  let n ← M.readLen cfg
  Rd.consume n

/-- `String`, `/repo/src/implementations/string.rs:7-35`, skip `skip.rs:58-79`. -/
def stringC (M : Machine) (cfg : Cfg) (cap : Nat → Bool) : Codec String where
  valid s := (strBytes s).length < 2 ^ M.bits ∧ bytesFit cap (strBytes s)
  enc s := .ok (encBytes cfg (strBytes s))
  dec := do
    let b ← M.readBytes cfg cap
    Rd.lift (fromUtf8 b)
  skip := M.skipBytes cfg
  skipS := M.skipBytesS cfg
  check := (do
    let b ← M.readBytes cfg cap
    Rd.lift (fromUtf8 b)).discard

/-- `bytes::Bytes`, `/repo/src/implementations/bytes.rs:10-32`, skip `skip.rs:863-884`. -/
def bytesC (M : Machine) (cfg : Cfg) (cap : Nat → Bool) : Codec Bytes where
  valid b := b.length < 2 ^ M.bits ∧ bytesFit cap b
  enc b := .ok (encBytes cfg b)
  dec := M.readBytes cfg cap
  skip := M.skipBytes cfg
  skipS := M.skipBytesS cfg
  check := (M.readBytes cfg cap).discard

/-- `PathBuf`, `/repo/src/implementations/path.rs:10-26`; skip mirrors decode (`skip.rs:55`). -/
def pathC (M : Machine) (cfg : Cfg) (cap : Nat → Bool) : Codec Bytes :=
  Codec.mirror
    (fun p => p.length < 2 ^ M.bits ∧ bytesFit cap p ∧ ∃ s, fromUtf8 p = .ok s)
    (fun p => match fromUtf8 p with
      | .ok _ => .ok (encBytes cfg p)
      | _ => .err .invalidPath)
    (do
      let s ← (M.stringC cfg cap).dec
      pure (strBytes s))

/-! ### Vectors and collections -/

/-- Element-wise `Vec<T>`, `/repo/src/implementations/vecs.rs:54-72` and `:108-133`, skip
`skip.rs:268-272` and `:336-340`, check `:344-353`. -/
def vecC (M : Machine) (cfg : Cfg) (cap : Nat → Bool) (c : Codec α) : Codec (List α) where
  valid l := l.length < 2 ^ M.bits ∧ (Revision.vecC cfg cap c).valid l
  enc l := do
    let b ← encList c.enc l
    pure (encLen cfg l.length ++ b)
  dec := do
    let n ← M.readLen cfg
    if n = 0 then pure []
    else do
      Rd.alloc (cap n)
      Rd.readN n c.dec
  skip := do
    let n ← M.readLen cfg
    Rd.repeatN n c.skip
  skipS := do
    let n ← M.readLen cfg
    Rd.repeatN n c.skipS
  check := (do
    let n ← M.readLen cfg
    if n = 0 then pure []
    else do
      Rd.alloc (cap n)
      Rd.readN n c.dec).discard

/-- Bulk-encoded vectors, `/repo/src/implementations/specialised.rs:47-129`, `:137-217`,
`uuid.rs:36-94`, skip `skip.rs:220-266` and `:282-334`.  For the single-byte types the code omits the
multiplication check, which cannot fail for `w = 1`. -/
def bulkC (M : Machine) (cfg : Cfg) (cap : Nat → Bool) (W w : Nat) : Codec (List (BitVec W)) where
  valid l := l.length < 2 ^ M.bits ∧ l.length * w < 2 ^ M.bits ∧ (Revision.bulkC cfg cap W w).valid l
  enc l := .ok (encLen cfg l.length ++ l.flatMap fun v => leBytes w v.toNat)
  dec := do
    let n ← M.readLen cfg
    if n = 0 then pure []
    else do
      let k ← Rd.lift (M.checkedMul n w .integerOverflow)
      Rd.alloc (cap n)
      let b ← Rd.readExact k
      pure ((splitN w n b).map fun e => BitVec.ofNat W (leVal e))
  skip := do
    let n ← M.readLen cfg
    let k ← Rd.lift (M.checkedMul n w .integerOverflow)
    Rd.advance k
  skipS := do
    let n ← M.readLen cfg
    let k ← Rd.lift (M.checkedMul n w .integerOverflow)
    Rd.consume k
  check := (do
    let n ← M.readLen cfg
    if n = 0 then pure []
    else do
      let k ← Rd.lift (M.checkedMul n w .integerOverflow)
      Rd.alloc (cap n)
      let b ← Rd.readExact k
      pure ((splitN w n b).map fun e => BitVec.ofNat W (leVal e))).discard

/-- Bit-packed `Vec<bool>`, `/repo/src/implementations/specialised.rs:223-277`, skip
`skip.rs:236-241` and `:298-303`. -/
def boolsC (M : Machine) (cfg : Cfg) (cap : Nat → Bool) : Codec (List Bool) where
  valid l := l.length < 2 ^ M.bits ∧ (Revision.boolsC cfg cap).valid l
  enc l := .ok (encLen cfg l.length ++ packBools (divCeil8 l.length) l)
  dec := do
    let n ← M.readLen cfg
    if n = 0 then pure []
    else do
      Rd.alloc (cap (divCeil8 n))
      let b ← Rd.readExact (divCeil8 n)
      Rd.alloc (cap n)
      pure (unpackBools n b)
  skip := do
    let n ← M.readLen cfg
    Rd.advance (divCeil8 n)
  skipS := do
    let n ← M.readLen cfg
    Rd.consume (divCeil8 n)
  check := (do
    let n ← M.readLen cfg
    if n = 0 then pure []
    else do
      Rd.alloc (cap (divCeil8 n))
      let b ← Rd.readExact (divCeil8 n)
      Rd.alloc (cap n)
      pure (unpackBools n b)).discard

/-- `/repo/src/implementations/collections.rs:41-52`, `:89-105`, `:140-151`, `:181-197`, `:230-240`. -/
def readColl (M : Machine) (cfg : Cfg) (cap : Nat → Bool) (elem : Rd α) (build : List α → β) : Rd β := do
  let n ← M.readLen cfg
  Rd.alloc (cap n)
  let l ← Rd.readN n elem
  pure (build l)

/-- Collections, `/repo/src/implementations/collections.rs:14-241` and `imbl.rs:125-319`; skips:
`skip.rs:609-769` and `:907-1073`. -/
def collC (M : Machine) (cfg : Cfg) (cap : Nat → Bool) (c : Codec α) (inv : List α → Prop)
    (build : List α → List α) : Codec (List α) where
  valid l := l.length < 2 ^ M.bits ∧ (Revision.collC cfg cap c inv build).valid l
  enc l := do
    let b ← encList c.enc l
    pure (encLen cfg l.length ++ b)
  dec := M.readColl cfg cap c.dec build
  skip := do
    let n ← M.readLen cfg
    Rd.repeatN n c.skip
  skipS := do
    let n ← M.readLen cfg
    Rd.repeatN n c.skipS
  check := (M.readColl cfg cap c.dec build).discard

/-- The dispatch on `TypeId` of the `Vec<T>` impls, `/repo/src/implementations/vecs.rs:21-52`,
`:84-106` and `skip.rs:212-266`. -/
def vecOf (M : Machine) (cfg : Cfg) (E : Env ι) :
    (t : Ty ι) → Codec (t.denote E.X) → Codec (List (t.denote E.X))
  | .bool, c => if cfg.specialised then M.boolsC cfg (E.cap .bool) else M.vecC cfg (E.cap .bool) c
  | .int k, c =>
    if cfg.specialised && k != .usize && k != .isize then
      M.bulkC cfg (E.cap (.int k)) k.bits (k.bits / 8)
    else M.vecC cfg (E.cap (.int k)) c
  | .float f, c =>
    if cfg.specialised then M.bulkC cfg (E.cap (.float f)) (8 * f.bytes) f.bytes
    else M.vecC cfg (E.cap (.float f)) c
  | .uuid, c =>
    if cfg.specialised then M.bulkC cfg (E.cap .uuid) 128 16 else M.vecC cfg (E.cap .uuid) c
  | t, c => M.vecC cfg (E.cap t) c

/-- The trait implementations selected for a type, as `Ty.codec` (`Verif.Model.Ty`); the impls of the
further types, `E.extC`, are those of this machine: the impls of `/repo/src/implementations/mod.rs:1-31`. -/
def codec (M : Machine) (cfg : Cfg) (E : Env ι) : (t : Ty ι) → Codec (t.denote E.X)
  | .unit => unitC
  | .bool => boolC
  | .int k => M.intC cfg k
  | .float f => floatC f.bytes
  | .char => charC
  | .string => M.stringC cfg (E.cap (.int .u8))
  | .path => M.pathC cfg (E.cap (.int .u8))
  | .bytes => M.bytesC cfg (E.cap (.int .u8))
  | .uuid => uuidC
  | .duration => durationC cfg
  | .systemTime => systemTimeC cfg
  | .notNan f => notNanC f.bytes
  | .option t => optionC cfg (M.codec cfg E t)
  | .result t e => resultC cfg (M.codec cfg E t) (M.codec cfg E e)
  | .bound t => boundC cfg (M.codec cfg E t)
  | .wrap t => wrapC (M.codec cfg E t)
  | .pair s t => pairC (M.codec cfg E s) (M.codec cfg E t)
  | .array n t => arrayC n (M.codec cfg E t)
  | .vec t => M.vecOf cfg E t (M.codec cfg E t)
  | .btreeMap k v =>
    M.collC cfg (E.cap (.pair k v)) (pairC (M.codec cfg E k) (M.codec cfg E v))
      (fun l => StrictAsc (E.cmp k) (l.map Prod.fst)) (btreeBuild (E.cmp k) Prod.fst)
  | .btreeSet k =>
    M.collC cfg (E.cap k) (M.codec cfg E k) (StrictAsc (E.cmp k)) (btreeBuild (E.cmp k) id)
  | .hashMap k v =>
    M.collC cfg (E.cap (.pair k v)) (pairC (M.codec cfg E k) (M.codec cfg E v))
      (fun l => DistinctKeys (E.eq k) (l.map Prod.fst)) (fun l => l.foldl (hashInsert (E.eq k)) [])
  | .hashSet k =>
    M.collC cfg (E.cap k) (M.codec cfg E k) (DistinctKeys (E.eq k))
      (fun l => l.foldl (hashSetInsert (E.eq k)) [])
  | .binaryHeap t =>
    M.collC cfg (E.cap t) (M.codec cfg E t) (HeapShape (E.cmp t))
      (fun l => l.foldl (heapPush (E.cmp t)) [])
  | .vector t => M.collC cfg (E.cap t) (M.codec cfg E t) (fun _ => True) (fun l => l)
  | .ext i => E.extC i

/-! ### Indexed collections -/

/-- Models `read_varint`, `/repo/src/optimised/indexed/serialize.rs:891-915`.  Simplification: `try_from`
is applied to all lengths, not only to those of eight bytes; the others fit 32 bits. -/
def readVarint (M : Machine) : Rd Nat := do
  let n ← Revision.readVarint
  Rd.lift (M.tryUsize n)

/-- Models the slice `read_varint` of `/repo/src/optimised/indexed/map_walk.rs:432-461` and
`/repo/src/optimised/indexed/seq_walk.rs:181-210`, with the same simplification. -/
def sliceVarint (M : Machine) (s : Bytes) : Res (Nat × Nat) := do
  let (n, k) ← Revision.sliceVarint s
  let n ← M.tryUsize n
  pure (n, k)

/-- Models `IndexedMapWalker::from_payload_inner`,
`/repo/src/optimised/indexed/map_walk.rs:165-232`. -/
def mapWalker (M : Machine) (payload : Bytes) (validate : Bool) : Res IndexedMapWalker :=
  match payload with
  | [] => .err .overrun
  | flags :: rest => do
    let (len, varintBytes) ← M.sliceVarint rest
    let cursor := 1 + varintBytes
    if flags &&& 1 = 0 then .ok ⟨payload.drop cursor, none, len⟩
    else do
      let tableBytes ← M.checkedMul len 8 .deserialize
      let tableEnd ← M.add cursor tableBytes
      if payload.length < tableEnd then .err .overrun
      else do
        let table ← sliceR payload cursor tableEnd
        let lensEnd ← M.add tableEnd 8
        if payload.length < lensEnd then .err .overrun
        else do
          let keysLen ← decodeU32At payload tableEnd
          let valsLen ← decodeU32At payload (tableEnd + 4)
          let keysEnd ← M.add lensEnd keysLen
          let valsEnd ← M.add keysEnd valsLen
          if payload.length < valsEnd then .err .overrun
          else do
            let keys ← sliceR payload lensEnd keysEnd
            let vals ← sliceR payload keysEnd valsEnd
            if validate then do
              validateMapPrologue table len keysLen valsLen
              validateKeyRegionAscending keys table len
              .ok ⟨payload.drop cursor, some ⟨table, keys, vals⟩, len⟩
            else .ok ⟨payload.drop cursor, some ⟨table, keys, vals⟩, len⟩

/-- Models `IndexedSeqWalker::from_payload_inner`,
`/repo/src/optimised/indexed/seq_walk.rs:89-126`. -/
def seqWalker (M : Machine) (payload : Bytes) (validate : Bool) : Res IndexedSeqWalker :=
  match payload with
  | [] => .err .overrun
  | flags :: rest => do
    let (len, varintLen) ← M.sliceVarint rest
    let cursor := 1 + varintLen
    if flags &&& 1 = 0 then .ok ⟨payload.drop cursor, none, len⟩
    else do
      let tableBytes ← M.checkedMul len 4 .deserialize
      let tableEnd ← M.add cursor tableBytes
      if payload.length < tableEnd then .err .overrun
      else do
        let offsets ← sliceR payload cursor tableEnd
        let body := payload.drop tableEnd
        if validate then do
          validateSeqPrologue offsets len (body.length % 2 ^ 32)
          .ok ⟨body, some offsets, len⟩
        else .ok ⟨body, some offsets, len⟩

/-- Models `deserialize_indexed_map` for `BTreeMap`,
`/repo/src/optimised/indexed/serialize.rs:728-768`, and for `HashMap`, `:124-154`. -/
def readIndexedMap (M : Machine) (pre capK capV : Nat → Bool) (k : Rd κ) (v : Rd ν)
    (build : List (κ × ν) → List (κ × ν)) : Rd (List (κ × ν)) := do
  let flags ← Rd.readByte
  let len ← M.readVarint
  Rd.alloc (pre len)
  if flags &&& 1 = 0 then do
    let l ← Rd.readN len (do
      let a ← k
      let b ← v
      pure (a, b))
    pure (build l)
  else do
    let tableBytes ← Rd.lift (M.checkedMul len 8 .overrun)
    let n ← Rd.lift (M.add tableBytes 8)
    Rd.advance n
    Rd.alloc (capK len)
    let ks ← Rd.readN len k
    Rd.alloc (capV len)
    let vs ← Rd.readN len v
    pure (build (ks.zip vs))

/-- Models `deserialize_indexed_seq`, `/repo/src/optimised/indexed/serialize.rs:776-802`. -/
def readIndexedSeq (M : Machine) (cap : Nat → Bool) (c : Rd α) : Rd (List α) := do
  let flags ← Rd.readByte
  let len ← M.readVarint
  if flags &&& 1 = 0 then do
    Rd.alloc (cap len)
    Rd.readN len c
  else do
    let tableBytes ← Rd.lift (M.checkedMul len 4 .overrun)
    Rd.advance tableBytes
    Rd.alloc (cap len)
    Rd.readN len c

/-- Models `skip_indexed_map`, `/repo/src/optimised/indexed/serialize.rs:814-845`. -/
def skipIndexedMap (M : Machine) (k v : Rd Unit) : Rd Unit := do
  let flags ← Rd.readByte
  let len ← M.readVarint
  if flags &&& 1 = 0 then
    Rd.repeatN len (do
      k
      v)
  else do
    let tableBytes ← Rd.lift (M.checkedMul len 8 .overrun)
    Rd.advance tableBytes
    let lens ← Rd.readExact 8
    let kRegion := leVal (lens.take 4)
    let vRegion := leVal (lens.drop 4)
    let dense ← Rd.lift (M.checkedAdd kRegion vRegion .overrun)
    Rd.advance dense

/-- Models `skip_indexed_seq`, `/repo/src/optimised/indexed/serialize.rs:858-888`. -/
def skipIndexedSeq (M : Machine) (c : Rd Unit) : Rd Unit := do
  let flags ← Rd.readByte
  let len ← M.readVarint
  if flags &&& 1 = 0 then Rd.repeatN len c
  else if len = 0 then pure ()
  else do
    let tableBytes ← Rd.lift (M.checkedMul len 4 .overrun)
    let table ← Rd.peek tableBytes
    let lastOff ← Rd.lift (decodeU32At table ((len - 1) * 4))
    Rd.advance tableBytes
    Rd.advance lastOff
    c

/-- The machine can address the bytes written.  Not asked of a 64-bit machine, which can address more than
any of these encodings takes: what a `Vec<u8>` filled by `/repo/src/lib.rs:195-202` can hold. -/
def Holds (M : Machine) (r : Res Bytes) : Prop := M.bits < 64 → ∀ b, r = .ok b → b.length < 2 ^ M.bits

/-- Models `impl IndexedMapEncoded for BTreeMap`, `/repo/src/optimised/indexed/serialize.rs:92-109`. -/
def indexedBTreeMapC (M : Machine) (capK capV : Nat → Bool) (cmp : κ → κ → Ordering) (k : Codec κ) (v : Codec ν) :
    Codec (List (κ × ν)) where
  valid l := (Revision.indexedBTreeMapC capK capV cmp k v).valid l ∧
    M.Holds (serializeIndexedEntries k.enc v.enc l)
  enc l := serializeIndexedEntries k.enc v.enc l
  dec := M.readIndexedMap (fun _ => true) capK capV k.dec v.dec (fun l => l.foldl (btreeInsert cmp) [])
  skip := M.skipIndexedMap k.skip v.skip
  skipS := M.skipIndexedMap k.skip v.skip
  check := (M.readIndexedMap (fun _ => true) capK capV k.dec v.dec
    (fun l => l.foldl (btreeInsert cmp) [])).discard

/-- Models `impl IndexedMapEncoded for HashMap`, `/repo/src/optimised/indexed/serialize.rs:111-158`. -/
def indexedHashMapC (M : Machine) (pre capK capV : Nat → Bool) (eq : κ → κ → Bool) (k : Codec κ) (v : Codec ν) :
    Codec (List (κ × ν)) where
  valid l := (Revision.indexedHashMapC pre capK capV eq k v).valid l ∧
    M.Holds (serializeIndexedEntries k.enc v.enc l)
  enc l := serializeIndexedEntries k.enc v.enc l
  dec := M.readIndexedMap pre capK capV k.dec v.dec (fun l => l.foldl (hashInsert eq) [])
  skip := M.skipIndexedMap k.skip v.skip
  skipS := M.skipIndexedMap k.skip v.skip
  check := (M.readIndexedMap pre capK capV k.dec v.dec (fun l => l.foldl (hashInsert eq) [])).discard

/-- Models `impl IndexedSeqEncoded for Vec`, `/repo/src/optimised/indexed/serialize.rs:174-188`. -/
def indexedSeqC (M : Machine) (cap : Nat → Bool) (c : Codec α) : Codec (List α) where
  valid l := (Revision.indexedSeqC cap c).valid l ∧ M.Holds (serializeIndexedSeq c.enc l)
  enc l := serializeIndexedSeq c.enc l
  dec := M.readIndexedSeq cap c.dec
  skip := M.skipIndexedSeq c.skip
  skipS := M.skipIndexedSeq c.skip
  check := (M.readIndexedSeq cap c.dec).discard

/-- Models `impl IndexedSetEncoded for BTreeSet`, `/repo/src/optimised/indexed/serialize.rs:282-296`, with
`deserialize_indexed_set`, `:259-267`. -/
def indexedBTreeSetC (M : Machine) (cap : Nat → Bool) (cmp : α → α → Ordering) (c : Codec α) : Codec (List α) where
  valid l := (Revision.indexedBTreeSetC cap cmp c).valid l ∧ M.Holds (serializeIndexedSet c.enc l)
  enc l := serializeIndexedSet c.enc l
  dec := do
    let l ← M.readIndexedSeq cap c.dec
    pure (btreeBuild cmp id l)
  skip := M.skipIndexedSeq c.skip
  skipS := M.skipIndexedSeq c.skip
  check := (M.readIndexedSeq cap c.dec).discard

/-- Models `impl IndexedSetEncoded for HashSet`, `/repo/src/optimised/indexed/serialize.rs:298-314`. -/
def indexedHashSetC (M : Machine) (cap : Nat → Bool) (eq : α → α → Bool) (c : Codec α) : Codec (List α) where
  valid l := (Revision.indexedHashSetC cap eq c).valid l ∧ M.Holds (serializeIndexedSet c.enc l)
  enc l := serializeIndexedSet c.enc l
  dec := do
    let l ← M.readIndexedSeq cap c.dec
    pure (l.foldl (hashSetInsert eq) [])
  skip := M.skipIndexedSeq c.skip
  skipS := M.skipIndexedSeq c.skip
  check := (M.readIndexedSeq cap c.dec).discard

/-! ### Derived types

The generated code itself computes with `u16` and `u32` only, and casts `u32` lengths to `usize`, which
is at least as wide: it depends on the machine through the impls of the field types. -/

/-- `#[revision(fixed)]` on an integer field: `FIXED_SUPPORTED_INTS`,
`/repo/revision-derive/src/expand/common.rs:131-156`.  On other types it does not compile. -/
def fixedIntC (M : Machine) (cfg : Cfg) : (k : IntTy) → Codec (BitVec k.bits)
  | .u32 => fixedC 4
  | .i32 => fixedC 4
  | .u64 => fixedC 8
  | .i64 => fixedC 8
  | .u128 => fixedC 16
  | .i128 => fixedC 16
  | k => M.intC cfg k

/-- The `fixed` encoding of a type, as `Revision.fixedOf`
(`/repo/revision-derive/src/expand/common.rs:131-156`). -/
def fixedOf (M : Machine) (cfg : Cfg) (E : Env ι) : (t : Ty ι) → Codec (t.denote E.X)
  | .int k => M.fixedIntC cfg k
  | t => M.codec cfg E t

/-- `#[revision(specialised)]`, `/repo/src/implementations/specialised.rs:15-30`. -/
def bulkOf (M : Machine) (cfg : Cfg) (E : Env ι) : (t : Ty ι) → Codec (t.denote E.X)
  | .vec t => M.vecOf ⟨cfg.fixedWidth, true⟩ E t (M.codec cfg E t)
  | t => M.codec cfg E t

/-- `#[revision(indexed_map)]`, `indexed_seq`, `indexed_set`:
`/repo/src/optimised/indexed/serialize.rs:86-345`, `/repo/src/implementations/imbl.rs:20-118`. -/
def indexedOf (M : Machine) (cfg : Cfg) (E : Env ι) : (t : Ty ι) → Codec (t.denote E.X)
  | .btreeMap k v => M.indexedBTreeMapC (E.cap k) (E.cap v) (E.cmp k) (M.codec cfg E k) (M.codec cfg E v)
  | .hashMap k v =>
    M.indexedHashMapC (E.cap (.pair k v)) (E.cap k) (E.cap v) (E.eq k) (M.codec cfg E k) (M.codec cfg E v)
  | .vec t => M.indexedSeqC (E.cap t) (M.codec cfg E t)
  | .vector t => M.indexedSeqC (E.cap t) (M.codec cfg E t)
  | .btreeSet k => M.indexedBTreeSetC (E.cap k) (E.cmp k) (M.codec cfg E k)
  | .hashSet k => M.indexedHashSetC (E.cap k) (E.eq k) (M.codec cfg E k)
  | t => M.codec cfg E t

section
variable {ι : Type} {K : ι → Kind} [DecidableEq ι]

/-- A field and the impls its type and attributes select, as `Field.decl`
(`/repo/revision-derive/src/expand/common.rs:178-248`).  The indexed impls are used only for fields
marked as such. -/
def decl (M : Machine) (cfg : Cfg) (I : Impls K) (n : Nat) (c : (i : ι) → Codec (Values K n i)) (f : Field K) :
    FieldDecl (DynAt K n) :=
  { f.decl cfg I n c with
    plain := dynC (E := I.env n c) f.ty (M.codec cfg (I.env n c) f.ty)
    fixedLe := dynC (E := I.env n c) f.ty (M.fixedOf cfg (I.env n c) f.ty)
    bulk := dynC (E := I.env n c) f.ty (M.bulkOf cfg (I.env n c) f.ty)
    indexed :=
      if (f.decl cfg I n c).isIndexed then dynC (E := I.env n c) f.ty (M.indexedOf cfg (I.env n c) f.ty)
      else (f.decl cfg I n c).indexed }

/-- A variant and the impls of its fields, as `Variant.decl`
(`/repo/revision-derive/src/ast/mod.rs:76-82`). -/
def variant (M : Machine) (cfg : Cfg) (I : Impls K) (n : Nat) (c : (i : ι) → Codec (Values K n i)) (v : Variant K) :
    VariantDecl (DynAt K n) :=
  ⟨v.ident, v.opts, v.fields.map (M.decl cfg I n c), v.convert n⟩

/-- The impls generated for a derived type, given those its fields use:
`/repo/revision-derive/src/expand/mod.rs:22-292`.  Impls written by hand are those of this machine. -/
def body (M : Machine) (cfg : Cfg) (I : Impls K) (n : Nat) (c : (i : ι) → Codec (Values K n i)) (h : List Entry) :
    {k : Kind} → Body K k → Codec (k.values (DynAt K n))
  | _, .struct fs => structC cfg h (fs.map (M.decl cfg I n c))
  | _, .enum vs => enumC cfg h (vs.map (M.variant cfg I n c))
  | _, .foreign x => x.codec

/-- The impls of a program, as `Program.codec` (`/repo/revision-derive/src/expand/mod.rs:22-292`). -/
def program (M : Machine) (cfg : Cfg) (P : Program ι) (I : Impls P.kind) : (n : Nat) → (i : ι) → Codec (Values P.kind n i)
  | 0, _ => neverC
  | n + 1, i => M.body cfg I n (M.program cfg P I n) (P.history i) (P.body i)

end

end Machine

end Revision
