import Verif.Model.Optimised

/-!
# Indexed collections

Models `/repo/src/optimised/indexed/{map_walk,seq_walk,serialize}.rs`.
-/

namespace Revision

/-! ### Lengths -/

/-- Models `write_varint`, `/repo/src/optimised/indexed/serialize.rs:918-931`: variable-length
whatever the cargo features. -/
def writeVarint (v : Nat) : Bytes :=
  if v ≤ 250 then [UInt8.ofNat v]
  else if v ≤ 2 ^ 16 - 1 then 251 :: leBytes 2 v
  else if v ≤ 2 ^ 32 - 1 then 252 :: leBytes 4 v
  else 253 :: leBytes 8 v

/-- Models `read_varint`, `/repo/src/optimised/indexed/serialize.rs:891-915`. -/
def readVarint : Rd Nat := do
  let tag ← Rd.readByte
  if tag ≤ 250 then pure tag.toNat
  else if tag = 251 then do let b ← Rd.readExact 2; pure (leVal b)
  else if tag = 252 then do let b ← Rd.readExact 4; pure (leVal b)
  else if tag = 253 then do let b ← Rd.readExact 8; pure (leVal b)
  else Rd.fail .invalidIntegerEncoding

/-- Models the slice `read_varint` of `/repo/src/optimised/indexed/map_walk.rs:432-461` and
`/repo/src/optimised/indexed/seq_walk.rs:181-210`: the value and the bytes it takes. -/
def sliceVarint (s : Bytes) : Res (Nat × Nat) :=
  match s with
  | [] => .err .overrun
  | tag :: _ =>
    if tag ≤ 250 then .ok (tag.toNat, 1)
    else if tag = 251 then
      if s.length < 3 then .err .overrun else .ok (leVal ((s.take 3).drop 1), 3)
    else if tag = 252 then
      if s.length < 5 then .err .overrun else .ok (leVal ((s.take 5).drop 1), 5)
    else if tag = 253 then
      if s.length < 9 then .err .overrun else .ok (leVal ((s.take 9).drop 1), 9)
    else .err .invalidIntegerEncoding

/-! ### Map walker -/

/-- Models `struct MapPrologue`, `/repo/src/optimised/indexed/map_walk.rs:67-73`. -/
structure MapPrologue where
  table : Bytes
  keys : Bytes
  vals : Bytes
  deriving DecidableEq, Repr

/-- Models `MapPrologue::key_off`, `/repo/src/optimised/indexed/map_walk.rs:78-80`. -/
def MapPrologue.keyOff (p : MapPrologue) (i : Nat) : Res Nat := decodeU32At p.table (i * 8)

/-- Models `MapPrologue::val_off`, `/repo/src/optimised/indexed/map_walk.rs:84-86`. -/
def MapPrologue.valOff (p : MapPrologue) (i : Nat) : Res Nat := decodeU32At p.table (i * 8 + 4)

/-- Models `MapPrologue::entry_ranges`, `/repo/src/optimised/indexed/map_walk.rs:94-111`. -/
def MapPrologue.entryRanges (p : MapPrologue) (n i : Nat) :
    Res (Option ((Nat × Nat) × (Nat × Nat))) := do
  if i ≥ n then .ok none
  else do
    let ks ← p.keyOff i
    let vs ← p.valOff i
    let ke ← if i + 1 < n then p.keyOff (i + 1) else .ok p.keys.length
    let ve ← if i + 1 < n then p.valOff (i + 1) else .ok p.vals.length
    pure (some ((ks, ke), (vs, ve)))

/-- Models `struct IndexedMapWalker`, `/repo/src/optimised/indexed/map_walk.rs:44-52`. -/
structure IndexedMapWalker where
  body : Bytes
  prologue : Option MapPrologue
  len : Nat
  deriving DecidableEq, Repr

/-- Models `struct HintedLookup`, `/repo/src/optimised/indexed/map_walk.rs:55-65`. -/
structure HintedLookup where
  value : Option Bytes
  hint : Option Nat
  deriving DecidableEq, Repr

namespace IndexedMapWalker

/-- Models `IndexedMapWalker::from_payload_inner`,
`/repo/src/optimised/indexed/map_walk.rs:165-232`. -/
def fromPayloadInner (payload : Bytes) (validate : Bool) : Res IndexedMapWalker :=
  match payload with
  | [] => .err .overrun
  | flags :: rest => do
    let (len, varintBytes) ← sliceVarint rest
    let cursor := 1 + varintBytes
    if flags &&& 1 = 0 then .ok ⟨payload.drop cursor, none, len⟩
    else do
      let tableBytes ← checkedMul len 8 .deserialize
      let tableEnd ← addU cursor tableBytes
      if payload.length < tableEnd then .err .overrun
      else do
        let table ← sliceR payload cursor tableEnd
        let lensEnd ← addU tableEnd 8
        if payload.length < lensEnd then .err .overrun
        else do
          let keysLen ← decodeU32At payload tableEnd
          let valsLen ← decodeU32At payload (tableEnd + 4)
          let keysEnd ← addU lensEnd keysLen
          let valsEnd ← addU keysEnd valsLen
          if payload.length < valsEnd then .err .overrun
          else do
            let keys ← sliceR payload lensEnd keysEnd
            let vals ← sliceR payload keysEnd valsEnd
            if validate then do
              validateMapPrologue table len keysLen valsLen
              validateKeyRegionAscending keys table len
              .ok ⟨payload.drop cursor, some ⟨table, keys, vals⟩, len⟩
            else .ok ⟨payload.drop cursor, some ⟨table, keys, vals⟩, len⟩

/-- Models `IndexedMapWalker::from_payload`, `/repo/src/optimised/indexed/map_walk.rs:115-117`. -/
def fromPayload (payload : Bytes) : Res IndexedMapWalker := fromPayloadInner payload true

/-- Models `IndexedMapWalker::from_payload_unvalidated`,
`/repo/src/optimised/indexed/map_walk.rs:161-163`. -/
def fromPayloadUnvalidated (payload : Bytes) : Res IndexedMapWalker := fromPayloadInner payload false

/-- Models `IndexedMapWalker::is_indexed`, `/repo/src/optimised/indexed/map_walk.rs:245-247`. -/
def isIndexed (w : IndexedMapWalker) : Bool := w.prologue.isSome

/-- Models `IndexedMapWalker::is_empty`, `/repo/src/optimised/indexed/map_walk.rs:240-242`;
`IndexedMapWalker::len`, `:235-237`, is the field `len`. -/
def isEmpty (w : IndexedMapWalker) : Bool := w.len == 0

/-- The iterator of `IndexedMapWalker::entries`,
`/repo/src/optimised/indexed/map_walk.rs:267-287`: entries `i, i + 1, …`, `m` of them. -/
def entriesLoop (p : MapPrologue) (n : Nat) : Nat → Nat → Nat → Nat → Res (List (Bytes × Bytes))
  | 0, _, _, _ => .ok []
  | m + 1, i, kStart, vStart => do
    let kEnd ← if i + 1 < n then p.keyOff (i + 1) else .ok p.keys.length
    let vEnd ← if i + 1 < n then p.valOff (i + 1) else .ok p.vals.length
    let rest ← entriesLoop p n m (i + 1) kEnd vEnd
    pure (((getR p.keys kStart kEnd).getD [], (getR p.vals vStart vEnd).getD []) :: rest)

/-- Models `IndexedMapWalker::entries`, `/repo/src/optimised/indexed/map_walk.rs:257-288`. -/
def entries (w : IndexedMapWalker) : Option (Res (List (Bytes × Bytes))) :=
  w.prologue.map fun p => do
    if w.len > 0 then do
      let k ← p.keyOff 0
      let v ← p.valOff 0
      entriesLoop p w.len w.len 0 k v
    else entriesLoop p w.len w.len 0 0 0

/-- Models the loop of `binary_search_entry`, `/repo/src/optimised/indexed/map_walk.rs:384-418`.
Simplification: the predicate is a pure function; `searchAsk` in `Verif.Model.Ask` lifts this. -/
def searchLoop (p : MapPrologue) (n : Nat) (pred : Bytes → Ordering) (lo hi : Nat) :
    Res (Option (Bytes × Nat)) :=
  if _h : lo < hi then
    let mid := lo + (hi - lo) / 2
    match p.entryRanges n mid with
    | .ok (some ((ks, ke), (vs, ve))) =>
      match getR p.keys ks ke with
      | none => .err (.offsetOutOfRange (ke % 2 ^ 32) (p.keys.length % 2 ^ 32))
      | some key =>
        match pred key with
        | .eq =>
          match getR p.vals vs ve with
          | none => .err (.offsetOutOfRange (ve % 2 ^ 32) (p.vals.length % 2 ^ 32))
          | some value => .ok (some (value, mid % 2 ^ 32))
        | .lt => searchLoop p n pred (mid + 1) hi
        | .gt => searchLoop p n pred lo mid
    | .ok none => .panic
    | .err e => .err e
    | .panic => .panic
  else .ok none
termination_by hi - lo
decreasing_by all_goals omega

/-- Models `IndexedMapWalker::find_value_bytes`,
`/repo/src/optimised/indexed/map_walk.rs:292-300`. -/
def findValueBytes (w : IndexedMapWalker) (pred : Bytes → Ordering) : Res (Option Bytes) :=
  match w.prologue with
  | none => .err .deserialize
  | some p => do
    let r ← searchLoop p w.len pred 0 w.len
    pure (r.map Prod.fst)

/-- The hint probe of `find_value_bytes_with_hint`,
`/repo/src/optimised/indexed/map_walk.rs:348-358`: the value at the hinted slot if its key
matches. -/
def probe (p : MapPrologue) (n : Nat) (hint : Option Nat) (pred : Bytes → Ordering) :
    Res (Option (Bytes × Nat)) :=
  match hint with
  | none => .ok none
  | some h => do
    match ← p.entryRanges n h with
    | none => pure none
    | some ((ks, ke), (vs, ve)) =>
      match getR p.keys ks ke with
      | none => pure none
      | some key =>
        if pred key = .eq then
          match getR p.vals vs ve with
          | none => pure none
          | some value => pure (some (value, h))
        else pure none

/-- Models `IndexedMapWalker::find_value_bytes_with_hint`,
`/repo/src/optimised/indexed/map_walk.rs:328-370`. -/
def findWithHint (w : IndexedMapWalker) (hint : Option Nat) (pred : Bytes → Ordering) :
    Res HintedLookup :=
  match w.prologue with
  | none => .err .deserialize
  | some p => do
    match ← probe p w.len hint pred with
    | some (value, h) => pure ⟨some value, some h⟩
    | none =>
      match ← searchLoop p w.len pred 0 w.len with
      | some (value, index) => pure ⟨some value, some index⟩
      | none => pure ⟨none, hint⟩

/-- Models `IndexedMapWalker::legacy_body`, `/repo/src/optimised/indexed/map_walk.rs:423-429`. -/
def legacyBody (w : IndexedMapWalker) : Option Bytes :=
  match w.prologue with
  | some _ => none
  | none => some w.body

end IndexedMapWalker

/-! ### Sequence walker -/

/-- Models `struct IndexedSeqWalker`, `/repo/src/optimised/indexed/seq_walk.rs:40-47`. -/
structure IndexedSeqWalker where
  body : Bytes
  offsets : Option Bytes
  len : Nat
  deriving DecidableEq, Repr

namespace IndexedSeqWalker

/-- Models `IndexedSeqWalker::from_payload_inner`,
`/repo/src/optimised/indexed/seq_walk.rs:89-126`. `body.len() as u32` truncates. -/
def fromPayloadInner (payload : Bytes) (validate : Bool) : Res IndexedSeqWalker :=
  match payload with
  | [] => .err .overrun
  | flags :: rest => do
    let (len, varintLen) ← sliceVarint rest
    let cursor := 1 + varintLen
    if flags &&& 1 = 0 then .ok ⟨payload.drop cursor, none, len⟩
    else do
      let tableBytes ← checkedMul len 4 .deserialize
      let tableEnd ← addU cursor tableBytes
      if payload.length < tableEnd then .err .overrun
      else do
        let offsets ← sliceR payload cursor tableEnd
        let body := payload.drop tableEnd
        if validate then do
          validateSeqPrologue offsets len (body.length % 2 ^ 32)
          .ok ⟨body, some offsets, len⟩
        else .ok ⟨body, some offsets, len⟩

/-- Models `IndexedSeqWalker::from_payload`, `/repo/src/optimised/indexed/seq_walk.rs:54-56`. -/
def fromPayload (payload : Bytes) : Res IndexedSeqWalker := fromPayloadInner payload true

/-- Models `IndexedSeqWalker::from_payload_unvalidated`,
`/repo/src/optimised/indexed/seq_walk.rs:85-87`. -/
def fromPayloadUnvalidated (payload : Bytes) : Res IndexedSeqWalker := fromPayloadInner payload false

/-- Models `IndexedSeqWalker::is_indexed`, `/repo/src/optimised/indexed/seq_walk.rs:148-150`. -/
def isIndexed (w : IndexedSeqWalker) : Bool := w.offsets.isSome

/-- Models `IndexedSeqWalker::is_empty`, `/repo/src/optimised/indexed/seq_walk.rs:143-145`;
`IndexedSeqWalker::len`, `:138-140`, is the field `len`. -/
def isEmpty (w : IndexedSeqWalker) : Bool := w.len == 0

/-- Models `IndexedSeqWalker::element_bytes`, `/repo/src/optimised/indexed/seq_walk.rs:154-168`,
with `offset_at`, `:133-135`. -/
def elementBytes (w : IndexedSeqWalker) (i : Nat) : Res Bytes :=
  match w.offsets with
  | none => .err .deserialize
  | some offsets => do
    if i ≥ w.len then .err .deserialize
    else do
      let start ← decodeU32At offsets (i * 4)
      let stop ← if i + 1 < w.len then decodeU32At offsets ((i + 1) * 4) else .ok w.body.length
      sliceR w.body start stop

end IndexedSeqWalker

/-! ### Encoding -/

/-- `for x in items { out.push(f(x)?) }`.  With `f` serialising into a fresh `Vec`:
`/repo/src/optimised/indexed/serialize.rs:220-225` and `:681-686`. -/
def encEach (f : α → Res β) : List α → Res (List β)
  | [] => .ok []
  | a :: as => do
    let b ← f a
    let bs ← encEach f as
    pure (b :: bs)

/-- One entry, `/repo/src/optimised/indexed/serialize.rs:583-590`. -/
def encPair (k : κ → Res Bytes) (v : ν → Res Bytes) (e : κ × ν) : Res (Bytes × Bytes) := do
  let kb ← k e.1
  let vb ← v e.2
  pure (kb, vb)

/-- The offset loop, `/repo/src/optimised/indexed/serialize.rs:241-247` and `:704-710`: the offset of
each body and the final offset.  `b.len() as u32` truncates before the checked addition. -/
def seqOffsets : Nat → List Bytes → Res (List Nat × Nat)
  | off, [] => .ok ([], off)
  | off, b :: bs =>
    if off + b.length % 2 ^ 32 < 2 ^ 32 then do
      let (os, last) ← seqOffsets (off + b.length % 2 ^ 32) bs
      pure (off :: os, last)
    else .err .serialize

/-- The two-column offset loop, `/repo/src/optimised/indexed/serialize.rs:617-626`. -/
def mapOffsets : Nat → Nat → List (Bytes × Bytes) → Res (List (Nat × Nat) × Nat × Nat)
  | k, v, [] => .ok ([], k, v)
  | k, v, (kb, vb) :: ps =>
    if k + kb.length % 2 ^ 32 < 2 ^ 32 then
      if v + vb.length % 2 ^ 32 < 2 ^ 32 then do
        let (os, last) ← mapOffsets (k + kb.length % 2 ^ 32) (v + vb.length % 2 ^ 32) ps
        pure ((k, v) :: os, last)
      else .err .serialize
    else .err .serialize

/-- `OFFSET_TABLE_MIN_LEN`, `/repo/src/optimised/indexed/mod.rs`. -/
def offsetTableMinLen : Nat := 8

/-- The part of `serialize_indexed_seq_iter` after the bodies are known,
`/repo/src/optimised/indexed/serialize.rs:687-714`; `serialize_indexed_set_iter` ends the same
way, `:229-252`. -/
def writeSeqBodies (bodies : List Bytes) : Res Bytes :=
  if bodies.length < offsetTableMinLen then
    .ok (0 :: (writeVarint bodies.length ++ bodies.flatten))
  else do
    let (os, _) ← seqOffsets 0 bodies
    pure (1 :: (writeVarint bodies.length ++ ((os.map (leBytes 4)).flatten ++ bodies.flatten)))

/-- Models `serialize_indexed_seq_iter`, `/repo/src/optimised/indexed/serialize.rs:675-715`, and
its wrapper for slices, `:653-658`. -/
def serializeIndexedSeq (enc : α → Res Bytes) (items : List α) : Res Bytes := do
  let bodies ← encEach enc items
  writeSeqBodies bodies

/-- Models `serialize_indexed_set_iter`, `/repo/src/optimised/indexed/serialize.rs:214-253`:
`items` in iteration order. -/
def serializeIndexedSet (enc : α → Res Bytes) (items : List α) : Res Bytes := do
  let bodies ← encEach enc items
  writeSeqBodies (bodies.mergeSort fun a b => (cmpBytes a b).isLE)

/-- The part of `serialize_indexed_entries` after sorting,
`/repo/src/optimised/indexed/serialize.rs:592-645`. -/
def writeMapPairs (pairs : List (Bytes × Bytes)) : Res Bytes :=
  if pairs.length < offsetTableMinLen then
    .ok (0 :: (writeVarint pairs.length ++ (pairs.map fun p => p.1 ++ p.2).flatten))
  else do
    let (os, kl, vl) ← mapOffsets 0 0 pairs
    pure (1 :: (writeVarint pairs.length ++
      ((os.map fun o => leBytes 4 o.1 ++ leBytes 4 o.2).flatten ++
        (leBytes 4 kl ++ (leBytes 4 vl ++
          ((pairs.map Prod.fst).flatten ++ (pairs.map Prod.snd).flatten))))))

/-- Models `serialize_indexed_entries`, `/repo/src/optimised/indexed/serialize.rs:570-646`, and its
wrapper for `BTreeMap`, `:546-555`: `entries` in iteration order. -/
def serializeIndexedEntries (k : κ → Res Bytes) (v : ν → Res Bytes) (entries : List (κ × ν)) :
    Res Bytes := do
  let pairs ← encEach (encPair k v) entries
  writeMapPairs (pairs.mergeSort fun a b => (cmpBytes a.1 b.1).isLE)

/-! ### Decoding -/

/-- `BTreeMap::insert`: an equal key keeps its place and key and gets the new value:
as in `/repo/src/optimised/indexed/serialize.rs:151`, `:765`. -/
def btreeInsert (cmp : κ → κ → Ordering) : List (κ × ν) → κ × ν → List (κ × ν)
  | [], p => [p]
  | e :: l, p =>
    match cmp p.1 e.1 with
    | .lt => p :: e :: l
    | .eq => (e.1, p.2) :: l
    | .gt => e :: btreeInsert cmp l p

/-- Models `deserialize_indexed_map` for `BTreeMap`,
`/repo/src/optimised/indexed/serialize.rs:728-768`, and for `HashMap`, `:124-154`.  `pre` is the
allocation made up front (hash maps), `capK`, `capV` those of the key and value buffers, `build`
inserts the entries read. -/
def readIndexedMap (pre capK capV : Nat → Bool) (k : Rd κ) (v : Rd ν)
    (build : List (κ × ν) → List (κ × ν)) : Rd (List (κ × ν)) := do
  let flags ← Rd.readByte
  let len ← readVarint
  Rd.alloc (pre len)
  if flags &&& 1 = 0 then do
    let l ← Rd.readN len (do
      let a ← k
      let b ← v
      pure (a, b))
    pure (build l)
  else do
    let tableBytes ← Rd.lift (checkedMul len 8 .overrun)
    let n ← Rd.lift (addU tableBytes 8)
    Rd.advance n
    Rd.alloc (capK len)
    let ks ← Rd.readN len k
    Rd.alloc (capV len)
    let vs ← Rd.readN len v
    pure (build (ks.zip vs))

/-- Models `deserialize_indexed_seq`, `/repo/src/optimised/indexed/serialize.rs:776-802`. -/
def readIndexedSeq (cap : Nat → Bool) (c : Rd α) : Rd (List α) := do
  let flags ← Rd.readByte
  let len ← readVarint
  if flags &&& 1 = 0 then do
    Rd.alloc (cap len)
    Rd.readN len c
  else do
    let tableBytes ← Rd.lift (checkedMul len 4 .overrun)
    Rd.advance tableBytes
    Rd.alloc (cap len)
    Rd.readN len c

/-- Models `skip_indexed_map`, `/repo/src/optimised/indexed/serialize.rs:814-845`. -/
def skipIndexedMap (k v : Rd Unit) : Rd Unit := do
  let flags ← Rd.readByte
  let len ← readVarint
  if flags &&& 1 = 0 then
    Rd.repeatN len (do
      k
      v)
  else do
    let tableBytes ← Rd.lift (checkedMul len 8 .overrun)
    Rd.advance tableBytes
    let lens ← Rd.readExact 8
    let kRegion := leVal (lens.take 4)
    let vRegion := leVal (lens.drop 4)
    Rd.advance (kRegion + vRegion)

/-- Models `skip_indexed_seq`, `/repo/src/optimised/indexed/serialize.rs:858-888`. -/
def skipIndexedSeq (c : Rd Unit) : Rd Unit := do
  let flags ← Rd.readByte
  let len ← readVarint
  if flags &&& 1 = 0 then Rd.repeatN len c
  else if len = 0 then pure ()
  else do
    let tableBytes ← Rd.lift (checkedMul len 4 .overrun)
    let table ← Rd.peek tableBytes
    let lastOff ← Rd.lift (decodeU32At table ((len - 1) * 4))
    Rd.advance tableBytes
    Rd.advance lastOff
    c

/-- Every element takes less than 4 GiB on the wire (specification): the range in which the encoders
compute offsets correctly (C45): see `/repo/src/optimised/indexed/serialize.rs:708`, `:245`. -/
def SmallEach (enc : α → Res Bytes) (l : List α) : Prop :=
  ∀ a ∈ l, ∀ b, enc a = .ok b → b.length < 2 ^ 32

/-- Every key and every value takes less than 4 GiB on the wire (specification):
see `/repo/src/optimised/indexed/serialize.rs:622-625`. -/
def SmallPairs (k : κ → Res Bytes) (v : ν → Res Bytes) (l : List (κ × ν)) : Prop :=
  ∀ e ∈ l, (∀ b, k e.1 = .ok b → b.length < 2 ^ 32) ∧ ∀ b, v e.2 = .ok b → b.length < 2 ^ 32

/-- Models `impl IndexedMapEncoded for BTreeMap`,
`/repo/src/optimised/indexed/serialize.rs:92-109`, as a codec.  `check` decodes, which is what
derived types do, `/repo/revision-derive/src/expand/mod.rs:188-200`. -/
def indexedBTreeMapC (capK capV : Nat → Bool) (cmp : κ → κ → Ordering) (k : Codec κ) (v : Codec ν) :
    Codec (List (κ × ν)) where
  valid l := l.length < 2 ^ 56 ∧ capK l.length = true ∧ capV l.length = true ∧
    (∀ e ∈ l, k.valid e.1 ∧ v.valid e.2) ∧ SmallPairs k.enc v.enc l ∧ StrictAsc cmp (l.map Prod.fst)
  enc l := serializeIndexedEntries k.enc v.enc l
  dec := readIndexedMap (fun _ => true) capK capV k.dec v.dec (fun l => l.foldl (btreeInsert cmp) [])
  skip := skipIndexedMap k.skip v.skip
  skipS := skipIndexedMap k.skip v.skip
  check := (readIndexedMap (fun _ => true) capK capV k.dec v.dec
    (fun l => l.foldl (btreeInsert cmp) [])).discard

/-- Models `impl IndexedMapEncoded for HashMap`,
`/repo/src/optimised/indexed/serialize.rs:111-158`, as a codec.  The encoding does not depend on
the iteration order (C40); a hash map is represented by its entries in byte order of the
serialised keys, the order in which they are read back. -/
def indexedHashMapC (pre capK capV : Nat → Bool) (eq : κ → κ → Bool) (k : Codec κ) (v : Codec ν) :
    Codec (List (κ × ν)) where
  valid l := l.length < 2 ^ 56 ∧ pre l.length = true ∧ capK l.length = true ∧
    capV l.length = true ∧ (∀ e ∈ l, k.valid e.1 ∧ v.valid e.2) ∧ SmallPairs k.enc v.enc l ∧
    DistinctKeys eq (l.map Prod.fst) ∧
    l.Pairwise fun a b => ∀ x y, k.enc a.1 = .ok x → k.enc b.1 = .ok y → (cmpBytes x y).isLE = true
  enc l := serializeIndexedEntries k.enc v.enc l
  dec := readIndexedMap pre capK capV k.dec v.dec (fun l => l.foldl (hashInsert eq) [])
  skip := skipIndexedMap k.skip v.skip
  skipS := skipIndexedMap k.skip v.skip
  check := (readIndexedMap pre capK capV k.dec v.dec (fun l => l.foldl (hashInsert eq) [])).discard

/-- Models `impl IndexedSeqEncoded for Vec`,
`/repo/src/optimised/indexed/serialize.rs:174-188`, as a codec. -/
def indexedSeqC (cap : Nat → Bool) (c : Codec α) : Codec (List α) where
  valid l := l.length < 2 ^ 56 ∧ cap l.length = true ∧ (∀ a ∈ l, c.valid a) ∧ SmallEach c.enc l
  enc l := serializeIndexedSeq c.enc l
  dec := readIndexedSeq cap c.dec
  skip := skipIndexedSeq c.skip
  skipS := skipIndexedSeq c.skip
  check := (readIndexedSeq cap c.dec).discard

/-- Models `impl IndexedSetEncoded for BTreeSet`,
`/repo/src/optimised/indexed/serialize.rs:282-296`, with `deserialize_indexed_set`, `:259-267`. -/
def indexedBTreeSetC (cap : Nat → Bool) (cmp : α → α → Ordering) (c : Codec α) :
    Codec (List α) where
  valid l := l.length < 2 ^ 56 ∧ cap l.length = true ∧ (∀ a ∈ l, c.valid a) ∧ SmallEach c.enc l ∧
    StrictAsc cmp l
  enc l := serializeIndexedSet c.enc l
  dec := do
    let l ← readIndexedSeq cap c.dec
    pure (btreeBuild cmp id l)
  skip := skipIndexedSeq c.skip
  skipS := skipIndexedSeq c.skip
  check := (readIndexedSeq cap c.dec).discard

/-- Models `impl IndexedSetEncoded for HashSet`,
`/repo/src/optimised/indexed/serialize.rs:298-314`; represented in byte order as
`indexedHashMapC`. -/
def indexedHashSetC (cap : Nat → Bool) (eq : α → α → Bool) (c : Codec α) : Codec (List α) where
  valid l := l.length < 2 ^ 56 ∧ cap l.length = true ∧ (∀ a ∈ l, c.valid a) ∧ SmallEach c.enc l ∧
    DistinctKeys eq l ∧
    l.Pairwise fun a b => ∀ x y, c.enc a = .ok x → c.enc b = .ok y → (cmpBytes x y).isLE = true
  enc l := serializeIndexedSet c.enc l
  dec := do
    let l ← readIndexedSeq cap c.dec
    pure (l.foldl (hashSetInsert eq) [])
  skip := skipIndexedSeq c.skip
  skipS := skipIndexedSeq c.skip
  check := (readIndexedSeq cap c.dec).discard

/-! ### Indexed structs, write side -/

/-- The offsets of fields written one after another starting at `off`:
`/repo/revision-derive/src/expand/optimised/struct_codegen.rs:84-111`. -/
def fieldOffsets : Nat → List Bytes → List Nat
  | _, [] => []
  | off, b :: bs => off :: fieldOffsets (off + b.length) bs

/-- The payload the derive macro writes for an `indexed_struct`: a zeroed table of `4 n` bytes,
then for each field its position (`as u32`, truncating) patched into the table and its bytes
appended.  `/repo/revision-derive/src/expand/optimised/struct_codegen.rs:52-110`.
Simplification: the patches are applied as the table is laid down. -/
def indexedStructPayload (fields : List Bytes) : Bytes :=
  ((fieldOffsets (fields.length * 4) fields).map (leBytes 4)).flatten ++ fields.flatten

end Revision
