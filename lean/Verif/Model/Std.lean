import Verif.Model.Prim

/-!
# Standard-library types

Models `/repo/src/implementations/{string,option,result,bound,tuple,array,range,vecs,
specialised,collections,bytes,path,duration,system_time,notnan,uuid}.rs` and the matching
impls in `/repo/src/implementations/skip.rs`.

`cap n` says whether the allocator grants the request made for a declared length `n`
(`Vec::with_capacity(n)`, `vec![_; n]`); it is an arbitrary parameter.
-/

namespace Revision

/-- Models `SliceReader::consume` as used by the `skip_revisioned_slice` impls,
`/repo/src/slice_reader.rs:55-64`. -/
def Rd.consume (n : Nat) : Rd Unit := ⟨fun s =>
  if n > s.length then .err .io else .ok ((), s.drop n)⟩

/-! ### Bytes and strings -/

/-- Models `serialize_bytes`, `/repo/src/implementations/vecs.rs:7-13`. -/
def encBytes (cfg : Cfg) (b : Bytes) : Bytes := encLen cfg b.length ++ b

/-- A length-prefixed byte payload fits the machine and is granted by the allocator:
see `/repo/src/implementations/string.rs:28-32`. -/
def bytesFit (cap : Nat → Bool) (b : Bytes) : Prop :=
  b.length < 2 ^ 64 ∧ (b ≠ [] → cap b.length = true)

/-- The read half shared by `String`, `Bytes` and `Vec<u8>`: length, early return, buffer,
bulk read.  `/repo/src/implementations/string.rs:21-34`, `bytes.rs:19-31`,
`specialised.rs:146-164`. -/
def readBytes (cfg : Cfg) (cap : Nat → Bool) : Rd Bytes := do
  let n ← readLen cfg
  if n = 0 then pure []
  else do
    Rd.alloc (cap n)
    Rd.readExact n

/-- `skip_revisioned` of `String`, `Bytes` and bulk `Vec<u8>`/`Vec<i8>`,
`/repo/src/implementations/skip.rs:60-64`, `:243-247`, `:866-870`. -/
def skipBytes (cfg : Cfg) : Rd Unit := do
  let n ← readLen cfg
  Rd.advance n

/-- The `skip_revisioned_slice` counterpart of `skipBytes`,
`/repo/src/implementations/skip.rs:66-70`, `:305-309`, `:871-875`. -/
def skipBytesS (cfg : Cfg) : Rd Unit := do
  let n ← readLen cfg
  Rd.consume n

/-- The UTF-8 bytes of a string (`str::as_bytes`): in `/repo/src/implementations/string.rs:7-18`. -/
def strBytes (s : String) : Bytes := s.toByteArray.data.toList

/-- Models `String::from_utf8(buf).map_err(..Utf8Error..)`: `/repo/src/implementations/string.rs:33`. -/
def fromUtf8 (b : Bytes) : Res String :=
  match String.fromUTF8? ⟨b.toArray⟩ with
  | some s => .ok s
  | none => .err .utf8

/-- `String`, `/repo/src/implementations/string.rs:7-35`, skip `skip.rs:58-79`. -/
def stringC (cfg : Cfg) (cap : Nat → Bool) : Codec String where
  valid s := bytesFit cap (strBytes s)
  enc s := .ok (encBytes cfg (strBytes s))
  dec := do
    let b ← readBytes cfg cap
    Rd.lift (fromUtf8 b)
  skip := skipBytes cfg
  skipS := skipBytesS cfg
  check := (do
    let b ← readBytes cfg cap
    Rd.lift (fromUtf8 b)).discard

/-- `bytes::Bytes`, `/repo/src/implementations/bytes.rs:10-32`, skip `skip.rs:863-884`. -/
def bytesC (cfg : Cfg) (cap : Nat → Bool) : Codec Bytes where
  valid := bytesFit cap
  enc b := .ok (encBytes cfg b)
  dec := readBytes cfg cap
  skip := skipBytes cfg
  skipS := skipBytesS cfg
  check := (readBytes cfg cap).discard

/-- `PathBuf`, `/repo/src/implementations/path.rs:10-26`; skip mirrors decode (`skip.rs:55`).
A path is its bytes (Unix); only UTF-8 paths can be written. -/
def pathC (cfg : Cfg) (cap : Nat → Bool) : Codec Bytes :=
  Codec.mirror
    (fun p => bytesFit cap p ∧ ∃ s, fromUtf8 p = .ok s)
    (fun p => match fromUtf8 p with
      | .ok _ => .ok (encBytes cfg p)
      | _ => .err .invalidPath)
    (do
      let s ← (stringC cfg cap).dec
      pure (strBytes s))

/-- Models the table `CHAR_LENGTH`, `/repo/src/implementations/string.rs:93-111`. -/
def charLen (b : UInt8) : Nat :=
  if b &&& 0x80 = 0 then 1
  else if b &&& 0xe0 = 0xc0 then 2
  else if b &&& 0xf0 = 0xe0 then 3
  else if b &&& 0xf8 = 0xf0 then 4
  else 0

/-- `char`, `/repo/src/implementations/string.rs:58-84`; skip mirrors decode.
`str::from_utf8(..).map(|x| x.chars().next().unwrap())` is `fromUtf8` followed by the first
character; an empty string there would be a panic. -/
def charC : Codec Char :=
  Codec.mirror (fun _ => True)
    (fun c => .ok (String.utf8EncodeChar c))
    (do
      let b ← Rd.readByte
      let len := charLen b
      if len = 0 then Rd.fail .invalidChar
      else do
        let rest ← Rd.readExact (len - 1)
        match fromUtf8 (b :: rest) with
        | .ok s => match s.toList with
          | c :: _ => pure c
          | [] => Rd.panic
        | _ => Rd.fail .invalidChar)

/-! ### Products -/

/-- `()`, `/repo/src/implementations/tuple.rs`. -/
def unitC : Codec Unit :=
  Codec.mirror (fun _ => True) (fun _ => .ok []) (pure ())

/-- Tuples, `/repo/src/implementations/tuple.rs:4-88`, skip `skip.rs:173-206`; `Range<T>`
(`range.rs:8-26`, skip `skip.rs:81-106`) is `pairC c c`.  Longer tuples nest to the right:
the code treats the components in order, without any delimiter. -/
def pairC (a : Codec α) (b : Codec β) : Codec (α × β) where
  valid v := a.valid v.1 ∧ b.valid v.2
  enc v := do
    let x ← a.enc v.1
    let y ← b.enc v.2
    pure (x ++ y)
  dec := do
    let x ← a.dec
    let y ← b.dec
    pure (x, y)
  skip := do
    a.skip
    b.skip
  skipS := do
    a.skipS
    b.skipS
  check := do
    a.check
    b.check

/-- `[T; n]`, `/repo/src/implementations/arrays.rs:6-60`, skip `skip.rs:132-171`. -/
def arrayC (n : Nat) (c : Codec α) : Codec (List α) where
  valid l := l.length = n ∧ ∀ a ∈ l, c.valid a
  enc l := encList c.enc l
  dec := Rd.readN n c.dec
  skip := Rd.repeatN n c.skip
  skipS := Rd.repeatN n c.skipS
  check := Rd.repeatN n c.check

/-- Transparent wrappers: `Box`, `/repo/src/implementations/boxes.rs:7-58`, `Arc`,
`/repo/src/implementations/arc.rs:8-58`, `Cow`, `/repo/src/implementations/cow.rs:5-64`,
`Wrapping`, `/repo/src/implementations/wrapping.rs:8-36`, and `Reverse`,
`/repo/src/implementations/reverse.rs:8-36`; skip `/repo/src/implementations/skip.rs:417-607`. -/
def wrapC (c : Codec α) : Codec α where
  valid := c.valid
  enc := c.enc
  dec := c.dec
  skip := c.skip
  skipS := c.skipS
  check := c.dec.discard

/-! ### Sums -/

/-- `.map_err(|ref err| Error::Deserialize(..))`:
`/repo/src/implementations/result.rs:29`, `:31` and `/repo/src/implementations/bound.rs:33`, `:37`. -/
def toDeserialize : Err → Err := fun _ => .deserialize

/-- `Option<T>`, `/repo/src/implementations/option.rs:7-36`, skip `skip.rs:355-383`. -/
def optionC (cfg : Cfg) (c : Codec α) : Codec (Option α) where
  valid
    | none => True
    | some a => c.valid a
  enc
    | none => .ok (encInt cfg .u8 0)
    | some a => do
      let b ← c.enc a
      pure (encInt cfg .u8 1 ++ b)
  dec := do
    let t ← decInt cfg .u8
    if t = 0 then pure none
    else if t = 1 then do
      let a ← c.dec
      pure (some a)
    else Rd.fail .deserialize
  skip := do
    let t ← decInt cfg .u8
    if t = 0 then pure ()
    else if t = 1 then c.skip
    else Rd.fail .deserialize
  skipS := do
    let t ← decInt cfg .u8
    if t = 0 then pure ()
    else if t = 1 then c.skipS
    else Rd.fail .deserialize
  check := (do
    let t ← decInt cfg .u8
    if t = 0 then pure none
    else if t = 1 then do
      let a ← c.dec
      pure (some a)
    else Rd.fail .deserialize).discard

/-- `Result<T, E>`, `/repo/src/implementations/result.rs:7-35`, skip `skip.rs:385-415`. -/
def resultC (cfg : Cfg) (c : Codec α) (d : Codec β) : Codec (Except β α) where
  valid
    | .ok a => c.valid a
    | .error e => d.valid e
  enc
    | .ok a => do
      let b ← c.enc a
      pure (encU32 cfg 0 ++ b)
    | .error e => do
      let b ← d.enc e
      pure (encU32 cfg 1 ++ b)
  dec := do
    let t ← readU32 cfg
    if t = 0 then do
      let a ← c.dec.mapErr toDeserialize
      pure (.ok a)
    else if t = 1 then do
      let e ← d.dec.mapErr toDeserialize
      pure (.error e)
    else Rd.fail .deserialize
  skip := do
    let t ← readU32 cfg
    if t = 0 then c.skip else if t = 1 then d.skip else Rd.fail .deserialize
  skipS := do
    let t ← readU32 cfg
    if t = 0 then c.skipS else if t = 1 then d.skipS else Rd.fail .deserialize
  check := (do
    let t ← readU32 cfg
    if t = 0 then do
      let a ← c.dec.mapErr toDeserialize
      pure (.ok a)
    else if t = 1 then do
      let e ← d.dec.mapErr toDeserialize
      pure (.error e)
    else Rd.fail .deserialize : Rd (Except β α)).discard

/-- `std::ops::Bound`: `/repo/src/implementations/bound.rs:8-42`. -/
inductive Bnd (α : Type) where
  | unbounded
  | included (a : α)
  | excluded (a : α)
  deriving DecidableEq, Repr

/-- `Bound<T>`, `/repo/src/implementations/bound.rs:8-42`, skip `skip.rs:537-567`. -/
def boundC (cfg : Cfg) (c : Codec α) : Codec (Bnd α) where
  valid
    | .unbounded => True
    | .included a => c.valid a
    | .excluded a => c.valid a
  enc
    | .unbounded => .ok (encU32 cfg 0)
    | .included a => do
      let b ← c.enc a
      pure (encU32 cfg 1 ++ b)
    | .excluded a => do
      let b ← c.enc a
      pure (encU32 cfg 2 ++ b)
  dec := do
    let t ← readU32 cfg
    if t = 0 then pure .unbounded
    else if t = 1 then do
      let a ← c.dec.mapErr toDeserialize
      pure (.included a)
    else if t = 2 then do
      let a ← c.dec.mapErr toDeserialize
      pure (.excluded a)
    else Rd.fail .deserialize
  skip := do
    let t ← readU32 cfg
    if t = 0 then pure () else if t = 1 then c.skip else if t = 2 then c.skip
    else Rd.fail .deserialize
  skipS := do
    let t ← readU32 cfg
    if t = 0 then pure () else if t = 1 then c.skipS else if t = 2 then c.skipS
    else Rd.fail .deserialize
  check := (do
    let t ← readU32 cfg
    if t = 0 then pure .unbounded
    else if t = 1 then do
      let a ← c.dec.mapErr toDeserialize
      pure (.included a)
    else if t = 2 then do
      let a ← c.dec.mapErr toDeserialize
      pure (.excluded a)
    else Rd.fail .deserialize : Rd (Bnd α)).discard

/-! ### Vectors -/

/-- Element-wise `Vec<T>`: the generic fallback of `/repo/src/implementations/vecs.rs:54-72`
and `:108-133`, skip `skip.rs:268-272` and `:336-340`, check `:344-353`. -/
def vecC (cfg : Cfg) (cap : Nat → Bool) (c : Codec α) : Codec (List α) where
  valid l := l.length < 2 ^ 64 ∧ (l ≠ [] → cap l.length = true) ∧ ∀ a ∈ l, c.valid a
  enc l := do
    let b ← encList c.enc l
    pure (encLen cfg l.length ++ b)
  dec := do
    let n ← readLen cfg
    if n = 0 then pure []
    else do
      Rd.alloc (cap n)
      Rd.readN n c.dec
  skip := do
    let n ← readLen cfg
    Rd.repeatN n c.skip
  skipS := do
    let n ← readLen cfg
    Rd.repeatN n c.skipS
  check := (do
    let n ← readLen cfg
    if n = 0 then pure []
    else do
      Rd.alloc (cap n)
      Rd.readN n c.dec).discard

/-- Cut a buffer into `n` pieces of `w` bytes (the elements of a bulk-read buffer):
`/repo/src/implementations/specialised.rs:86-108`. -/
def splitN (w : Nat) : Nat → Bytes → List Bytes
  | 0, _ => []
  | n + 1, b => b.take w :: splitN w n (b.drop w)

/-- Bulk-encoded `Vec` of `W`-bit numbers of `w` bytes each (`W = 8 w`), and of `Uuid` (`w = 16`):
`/repo/src/implementations/specialised.rs:47-129`, `:137-217`, `uuid.rs:36-94`; skip
`skip.rs:220-266` and `:282-334`.
Simplification: for the single-byte types the code omits the multiplication check, which cannot
fail for `w = 1`; and it reads through `take(len).read_to_end`, which on a slice is `read_exact`. -/
def bulkC (cfg : Cfg) (cap : Nat → Bool) (W w : Nat) : Codec (List (BitVec W)) where
  valid l := l.length < 2 ^ 64 ∧ l.length * w < 2 ^ 64 ∧ (l ≠ [] → cap l.length = true)
  enc l := .ok (encLen cfg l.length ++ l.flatMap fun v => leBytes w v.toNat)
  dec := do
    let n ← readLen cfg
    if n = 0 then pure []
    else if n * w < 2 ^ 64 then do
      Rd.alloc (cap n)
      let b ← Rd.readExact (n * w)
      pure ((splitN w n b).map fun e => BitVec.ofNat W (leVal e))
    else Rd.fail .integerOverflow
  skip := do
    let n ← readLen cfg
    if n * w < 2 ^ 64 then Rd.advance (n * w) else Rd.fail .integerOverflow
  skipS := do
    let n ← readLen cfg
    if n * w < 2 ^ 64 then Rd.consume (n * w) else Rd.fail .integerOverflow
  check := (do
    let n ← readLen cfg
    if n = 0 then pure []
    else if n * w < 2 ^ 64 then do
      Rd.alloc (cap n)
      let b ← Rd.readExact (n * w)
      pure ((splitN w n b).map fun e => BitVec.ofNat W (leVal e))
    else Rd.fail .integerOverflow).discard

/-- `len.div_ceil(8)`: `/repo/src/implementations/specialised.rs:235`, `:262`. -/
def divCeil8 (n : Nat) : Nat := (n + 7) / 8

/-- One packed byte: `for (i, &b) in chunk.iter().enumerate() { if b { byte |= 1 << i } }`,
`/repo/src/implementations/specialised.rs:238-246`. -/
def packByte (chunk : List Bool) : UInt8 :=
  chunk.zipIdx.foldl (fun byte p => if p.1 then byte ||| (1 <<< UInt8.ofNat p.2) else byte) 0

/-- `for chunk in self.chunks(8)`, for `n = len.div_ceil(8)` chunks:
`/repo/src/implementations/specialised.rs:238-246`. -/
def packBools : Nat → List Bool → Bytes
  | 0, _ => []
  | n + 1, l => packByte (l.take 8) :: packBools n (l.drop 8)

/-- `for bit in 0..bits { vec.push((byte >> bit) & 1 == 1) }`,
`/repo/src/implementations/specialised.rs:268-273`. -/
def unpackByte (bits : Nat) (byte : UInt8) : List Bool :=
  (List.range bits).map fun bit => (byte >>> UInt8.ofNat bit) &&& 1 = 1

/-- `for (i, &byte) in buffer.iter().enumerate()`, with `len` the number of elements still due
(`len - i * 8` in the code): `/repo/src/implementations/specialised.rs:268-273`. -/
def unpackBools : Nat → Bytes → List Bool
  | _, [] => []
  | len, b :: bs => unpackByte (min 8 len) b ++ unpackBools (len - 8) bs

/-- Bit-packed `Vec<bool>`, `/repo/src/implementations/specialised.rs:223-277`, skip
`skip.rs:236-241` and `:298-303`. -/
def boolsC (cfg : Cfg) (cap : Nat → Bool) : Codec (List Bool) where
  valid l := l.length < 2 ^ 64 ∧ (l ≠ [] → cap (divCeil8 l.length) = true ∧ cap l.length = true)
  enc l := .ok (encLen cfg l.length ++ packBools (divCeil8 l.length) l)
  dec := do
    let n ← readLen cfg
    if n = 0 then pure []
    else do
      Rd.alloc (cap (divCeil8 n))
      let b ← Rd.readExact (divCeil8 n)
      Rd.alloc (cap n)
      pure (unpackBools n b)
  skip := do
    let n ← readLen cfg
    Rd.advance (divCeil8 n)
  skipS := do
    let n ← readLen cfg
    Rd.consume (divCeil8 n)
  check := (do
    let n ← readLen cfg
    if n = 0 then pure []
    else do
      Rd.alloc (cap (divCeil8 n))
      let b ← Rd.readExact (divCeil8 n)
      Rd.alloc (cap n)
      pure (unpackBools n b)).discard

/-! ### Collections -/

/-- The reading loop shared by the collections: length, allocation (even for 0), elements,
then `build`.  `/repo/src/implementations/collections.rs:41-52`, `:89-105`, `:140-151`,
`:181-197`, `:230-240`. -/
def readColl (cfg : Cfg) (cap : Nat → Bool) (elem : Rd α) (build : List α → β) : Rd β := do
  let n ← readLen cfg
  Rd.alloc (cap n)
  let l ← Rd.readN n elem
  pure (build l)

/-- A collection codec: `to_list` is the iteration order of the serialiser, `build` the
construction from the elements read. Skips: `skip.rs:609-769`. -/
def collC (cfg : Cfg) (cap : Nat → Bool) (c : Codec α) (inv : List α → Prop)
    (build : List α → List α) : Codec (List α) where
  valid l := l.length < 2 ^ 64 ∧ cap l.length = true ∧ (∀ a ∈ l, c.valid a) ∧ inv l
  enc l := do
    let b ← encList c.enc l
    pure (encLen cfg l.length ++ b)
  dec := readColl cfg cap c.dec build
  skip := do
    let n ← readLen cfg
    Rd.repeatN n c.skip
  skipS := do
    let n ← readLen cfg
    Rd.repeatN n c.skipS
  check := (readColl cfg cap c.dec build).discard

/-- `HashMap::insert`: an existing equal key keeps its place and gets the new value, otherwise the
pair is added.  A hash map is the list of its entries in iteration order; where a new entry
goes in that order is not modelled (theorems quantify over every order):
in `/repo/src/implementations/collections.rs:49`. -/
def hashInsert (eq : κ → κ → Bool) (l : List (κ × ν)) (p : κ × ν) : List (κ × ν) :=
  if l.any (fun e => eq e.1 p.1) then
    l.map fun e => if eq e.1 p.1 then (e.1, p.2) else e
  else l ++ [p]

/-- `HashSet::insert`: an existing equal element is kept: in `/repo/src/implementations/collections.rs:148`. -/
def hashSetInsert (eq : κ → κ → Bool) (l : List κ) (k : κ) : List κ :=
  if l.any (fun e => eq e k) then l else l ++ [k]

/-- No two entries have equal keys: of `/repo/src/implementations/collections.rs:14-52`. -/
def DistinctKeys (eq : κ → κ → Bool) (l : List κ) : Prop :=
  l.Pairwise fun a b => eq a b = false

/-- `HashMap<K, V>`, `/repo/src/implementations/collections.rs:14-53`, skip `skip.rs:609-643`. -/
def hashMapC (cfg : Cfg) (cap : Nat → Bool) (eq : κ → κ → Bool) (k : Codec κ) (v : Codec ν) :
    Codec (List (κ × ν)) :=
  collC cfg cap (pairC k v) (fun l => DistinctKeys eq (l.map Prod.fst))
    (fun l => l.foldl (hashInsert eq) [])

/-- `HashSet<T>`, `/repo/src/implementations/collections.rs:115-152`, skip `skip.rs:679-709`. -/
def hashSetC (cfg : Cfg) (cap : Nat → Bool) (eq : κ → κ → Bool) (k : Codec κ) : Codec (List κ) :=
  collC cfg cap k (DistinctKeys eq) (fun l => l.foldl (hashSetInsert eq) [])

/-- `DedupSortedIter` of the standard library (used by `BTreeMap::from_iter`): of a run of equal
keys only the last entry is kept: in `/repo/src/implementations/collections.rs:104`, `:197`. -/
def dedupLast (cmp : κ → κ → Ordering) (key : α → κ) : List α → List α
  | [] => []
  | [a] => [a]
  | a :: b :: l =>
    if cmp (key a) (key b) = .eq then dedupLast cmp key (b :: l)
    else a :: dedupLast cmp key (b :: l)

/-- `BTreeMap::from_iter` / `BTreeSet::from_iter`: stable sort by key, then `dedupLast`:
in `/repo/src/implementations/collections.rs:104`, `:197`. -/
def btreeBuild (cmp : κ → κ → Ordering) (key : α → κ) (l : List α) : List α :=
  dedupLast cmp key (l.mergeSort fun a b => (cmp (key a) (key b)).isLE)

/-- Strictly ascending under `cmp`: of `/repo/src/implementations/collections.rs:64-105`. -/
def StrictAsc (cmp : κ → κ → Ordering) (l : List κ) : Prop :=
  l.Pairwise fun a b => cmp a b = .lt

/-- `BTreeMap<K, V>`: the list of its entries in key order.
`/repo/src/implementations/collections.rs:64-106`, skip `skip.rs:645-677`. -/
def btreeMapC (cfg : Cfg) (cap : Nat → Bool) (cmp : κ → κ → Ordering) (k : Codec κ) (v : Codec ν) :
    Codec (List (κ × ν)) :=
  collC cfg cap (pairC k v) (fun l => StrictAsc cmp (l.map Prod.fst)) (btreeBuild cmp Prod.fst)

/-- `BTreeSet<T>`, `/repo/src/implementations/collections.rs:161-199`, skip `skip.rs:711-739`. -/
def btreeSetC (cfg : Cfg) (cap : Nat → Bool) (cmp : κ → κ → Ordering) (k : Codec κ) :
    Codec (List κ) :=
  collC cfg cap k (StrictAsc cmp) (btreeBuild cmp id)

/-- The sift-up loop of `BinaryHeap::push`: while the element at `pos` is greater than its parent,
swap them.  A heap is its backing array: in `/repo/src/implementations/collections.rs:237`. -/
def siftUp (cmp : α → α → Ordering) (l : List α) (pos : Nat) : List α :=
  if _hp : pos = 0 then l
  else
    let parent := (pos - 1) / 2
    match l[pos]?, l[parent]? with
    | some x, some p =>
      if (cmp x p).isLE then l
      else siftUp cmp ((l.set pos p).set parent x) parent
    | _, _ => l
termination_by pos
decreasing_by omega

/-- `BinaryHeap::push`: in `/repo/src/implementations/collections.rs:237`. -/
def heapPush (cmp : α → α → Ordering) (l : List α) (x : α) : List α :=
  siftUp cmp (l ++ [x]) l.length

/-- The binary-heap shape: no element is greater than its parent:
of `/repo/src/implementations/collections.rs:208-240`. -/
def HeapShape (cmp : α → α → Ordering) (l : List α) : Prop :=
  ∀ i x p, 0 < i → l[i]? = some x → l[(i - 1) / 2]? = some p → (cmp x p).isLE = true

/-- `BinaryHeap<T>`, `/repo/src/implementations/collections.rs:208-241`, skip `skip.rs:741-769`.
The serialiser iterates the backing array. -/
def binaryHeapC (cfg : Cfg) (cap : Nat → Bool) (cmp : α → α → Ordering) (c : Codec α) :
    Codec (List α) :=
  collC cfg cap c (HeapShape cmp) (fun l => l.foldl (heapPush cmp) [])

/-- `imbl::Vector<T>`, `/repo/src/implementations/imbl.rs:125-153`, skip `skip.rs:907-937`: element by
element whatever the element type.  The other `imbl` collections have the impls of their counterparts
in the standard library (`imbl.rs:159-319`, skip `skip.rs:939-1073`). -/
def vectorC (cfg : Cfg) (cap : Nat → Bool) (c : Codec α) : Codec (List α) :=
  collC cfg cap c (fun _ => True) (fun l => l)

/-! ### Times -/

/-- Models `Duration::new(secs, nanos)`: excess nanoseconds carry into the seconds; overflow of the
seconds panics: in `/repo/src/implementations/duration.rs:21` and `/repo/src/implementations/system_time.rs:23`. -/
def durationNew (secs : BitVec 64) (nanos : BitVec 32) : Res (BitVec 64 × BitVec 32) :=
  if nanos.toNat < 1000000000 then .ok (secs, nanos)
  else
    let s := secs.toNat + nanos.toNat / 1000000000
    if s < 2 ^ 64 then .ok (BitVec.ofNat 64 s, BitVec.ofNat 32 (nanos.toNat % 1000000000))
    else .panic

/-- `std::time::Duration` (`secs`, `subsec_nanos`), `/repo/src/implementations/duration.rs:8-23`;
skip mirrors decode. -/
def durationC (cfg : Cfg) : Codec (BitVec 64 × BitVec 32) :=
  Codec.mirror (fun d => d.2.toNat < 1000000000)
    (fun d => .ok (encInt cfg .u64 d.1 ++ encInt cfg .u32 d.2))
    (do
      let secs ← decInt cfg .u64
      let nanos ← decInt cfg .u32
      Rd.lift (durationNew secs nanos))

/-- `std::time::SystemTime` on Unix: seconds relative to the epoch as `i64` and nanoseconds.
`/repo/src/implementations/system_time.rs:8-25`; skip and check `skip.rs:108-130`.
`UNIX_EPOCH + d` panics when the seconds do not fit `i64`. -/
def systemTimeC (cfg : Cfg) : Codec (BitVec 64 × BitVec 32) where
  valid t := 0 ≤ t.1.toInt ∧ t.2.toNat < 1000000000
  enc t :=
    if t.1.toInt < 0 then .err .serialize
    else .ok (encInt cfg .u64 t.1 ++ encInt cfg .u32 t.2)
  dec := do
    let secs ← decInt cfg .u64
    let nanos ← decInt cfg .u32
    let d ← Rd.lift (durationNew secs nanos)
    if d.1.toNat < 2 ^ 63 then pure d else Rd.panic
  skip := do
    (decInt cfg .u64).discard
    (decInt cfg .u32).discard
  skipS := do
    (decInt cfg .u64).discard
    (decInt cfg .u32).discard
  check := do
    (decInt cfg .u64).discard
    (decInt cfg .u32).discard

/-! ### Others -/

/-- `f32`/`f64::is_nan` on a bit pattern: exponent all ones, mantissa non-zero
(`n` = width in bytes, 4 or 8): in `/repo/src/implementations/notnan.rs:16-26`. -/
def isNaN (n : Nat) (v : BitVec (8 * n)) : Bool :=
  let mant := if n = 4 then 23 else 52
  let x := v.toNat % 2 ^ (8 * n - 1)
  decide (x > (2 ^ (8 * n - 1 - mant) - 1) * 2 ^ mant)

/-- `NotNan<f32>` / `NotNan<f64>`, `/repo/src/implementations/notnan.rs:7-26`,
skip `skip.rs:771-796` (the plain skip does not look for NaN). -/
def notNanC (n : Nat) : Codec (BitVec (8 * n)) where
  valid v := isNaN n v = false
  enc v := .ok (leBytes n v.toNat)
  dec := do
    let v ← (floatC n).dec
    if isNaN n v then Rd.fail .deserialize else pure v
  skip := (floatC n).skip
  skipS := (floatC n).skipS
  check := (do
    let v ← (floatC n).dec
    if isNaN n v then Rd.fail .deserialize else pure v).discard

/-- `Uuid` as its 16 raw bytes, `/repo/src/implementations/uuid.rs:9-23`, skip `skip.rs:820-838`.
The 128-bit pattern stands for the byte array in wire order. -/
def uuidC : Codec (BitVec 128) where
  valid _ := True
  enc v := .ok (leBytes 16 v.toNat)
  dec := readLE 128 16
  skip := Rd.advance 16
  skipS := Rd.consume 16
  check := (readLE 128 16).discard

end Revision
