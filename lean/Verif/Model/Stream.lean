import Verif.Model.Ty
import Verif.Model.Reader

/-!
# Reading from an arbitrary `std::io::Read`

The public entry points are generic over `R: std::io::Read`.  `Rd` models them on a slice.  Here the
reader is arbitrary: it may hand out the bytes in pieces of any size, be interrupted, fail, or end.
A decoder is a program (`Prog`) whose only access to the reader is through the two operations the
crate uses, `read_exact` and `take(n).read_to_end`; the programs below are the decoders and skippers
of `Verif.Model.Prim`, `Verif.Model.Std` and `Verif.Model.Ty` again, this time over such a reader.
-/

namespace Revision

/-- What one call of `Read::read` does: hand out bytes, return `ErrorKind::Interrupted`, or return
another error.  An empty `data` is `Ok(0)`, the end of the input:
what the `R: Read` of `/repo/src/lib.rs:159` may do. -/
inductive Ev where
  | data (b : Bytes)
  | interrupted
  | failed
  deriving DecidableEq, Repr

/-- An `R: std::io::Read`, by what its successive `read` calls will do.  A piece longer than the
caller's buffer is handed out over several calls; after the last event the reader is at its end:
the `R: Read` of `/repo/src/lib.rs:159`. -/
abbrev Stream := List Ev

/-- The result of one `read` call: what the `R: Read` of `/repo/src/lib.rs:159` returns. -/
inductive IoRes where
  | ok (b : Bytes)
  | interrupted
  | failed
  deriving DecidableEq, Repr

namespace Stream

/-- One call `reader.read(buf)` with a buffer of `n` bytes: as in `/repo/src/slice_reader.rs:11-19`. -/
def read (n : Nat) : Stream → IoRes × Stream
  | [] => (.ok [], [])
  | .data b :: s => if b.length ≤ n then (.ok b, s) else (.ok (b.take n), .data (b.drop n) :: s)
  | .interrupted :: s => (.interrupted, s)
  | .failed :: s => (.failed, s)

/-- How much the reader still has to do; decreases with every `read` into a non-empty buffer:
a measure for `/repo/src/slice_reader.rs:11-19`. -/
def work : Stream → Nat
  | [] => 0
  | .data b :: s => b.length + 1 + work s
  | _ :: s => 1 + work s

theorem read_work (n : Nat) (h : n ≠ 0) (s : Stream) (hs : s ≠ []) : (s.read n).2.work < s.work := by
  cases s with
  | nil => exact absurd rfl hs
  | cons e s =>
    cases e with
    | data b =>
      simp only [read]
      split
      · simp [work]
      · simp only [work, List.length_drop]; omega
    | interrupted => simp [read, work]
    | failed => simp [read, work]

theorem read_nil {n : Nat} {s : Stream} (h : (s.read n).1 ≠ .ok []) : s ≠ [] := by
  rintro rfl; exact h rfl

/-- Models the provided method `Read::read_exact` of the standard library (`default_read_exact`):
while the buffer is not full, `read` into the rest of it; stop at `Ok(0)` with `UnexpectedEof`,
ignore `Interrupted`, return any other error.  All errors become `Error::Io`:
as in `/repo/src/implementations/primitives.rs:7-11`. -/
def readExact (n : Nat) (s : Stream) : Res (Bytes × Stream) :=
  if hn : n = 0 then .ok ([], s)
  else
    match h : s.read n with
    | (.ok b, s') =>
      if hb : b = [] then .err .io
      else
        match readExact (n - b.length) s' with
        | .ok (b', s'') => .ok (b ++ b', s'')
        | .err e => .err e
        | .panic => .panic
    | (.interrupted, s') => readExact n s'
    | (.failed, _) => .err .io
termination_by s.work
decreasing_by
  · have := read_work n hn s (read_nil (n := n) (by rw [h]; simpa using hb))
    rw [h] at this; exact this
  · have := read_work n hn s (read_nil (n := n) (by rw [h]; simp))
    rw [h] at this; exact this

/-- Models `Read::read_to_end` on `reader.take(n)` (`default_read_to_end`): read until `Ok(0)`,
ignore `Interrupted`, return any other error.  `Take` caps every read at what is left of `n` and
answers `Ok(0)` itself once nothing is left.  The size of the buffer offered to each read is up to
the standard library: `buf k` is the size when `k` bytes are left (at least one):
as in `/repo/src/implementations/bytes.rs:26-27` and `/repo/src/implementations/specialised.rs:157-159`. -/
def takeToEnd (buf : Nat → Nat) (n : Nat) (s : Stream) : Res (Bytes × Stream) :=
  if hn : n = 0 then .ok ([], s)
  else
    match h : s.read (min n (max 1 (buf n))) with
    | (.ok b, s') =>
      if hb : b = [] then .ok ([], s')
      else
        match takeToEnd buf (n - b.length) s' with
        | .ok (b', s'') => .ok (b ++ b', s'')
        | .err e => .err e
        | .panic => .panic
    | (.interrupted, s') => takeToEnd buf n s'
    | (.failed, _) => .err .io
termination_by s.work
decreasing_by
  · have := read_work (min n (max 1 (buf n))) (by omega) s (read_nil (n := _) (by rw [h]; simpa using hb))
    rw [h] at this; exact this
  · have := read_work (min n (max 1 (buf n))) (by omega) s (read_nil (n := _) (by rw [h]; simp))
    rw [h] at this; exact this

/-- `if len != reader.take(len).read_to_end(&mut vec)? { return Err(Io(UnexpectedEof)) }`,
`/repo/src/implementations/specialised.rs:157-161`, `:200-204`, `bytes.rs:26-29`. -/
def takeExact (buf : Nat → Nat) (n : Nat) (s : Stream) : Res (Bytes × Stream) :=
  match takeToEnd buf n s with
  | .ok (b, s') => if b.length = n then .ok (b, s') else .err .io
  | .err e => .err e
  | .panic => .panic

end Stream

/-- A computation over a reader: `exact n f k` is `read_exact` of `n` bytes, `take n f k` is
`take(n).read_to_end`; `f` is what becomes of an I/O error on its way out:
any reading function, `/repo/src/lib.rs:33`, `:159`. -/
inductive Prog (α : Type) where
  | pure (a : α)
  | fail (e : Err)
  | panic
  | exact (n : Nat) (f : Err → Err) (k : Bytes → Prog α)
  | take (n : Nat) (f : Err → Err) (k : Bytes → Prog α)

namespace Prog

/-- Sequencing with `?`: as in `/repo/src/implementations/primitives.rs:284-297`. -/
def bind : Prog α → (α → Prog β) → Prog β
  | .pure a, g => g a
  | .fail e, _ => .fail e
  | .panic, _ => .panic
  | .exact n f k, g => .exact n f fun b => (k b).bind g
  | .take n f k, g => .take n f fun b => (k b).bind g

instance : Monad Prog where
  pure := Prog.pure
  bind := Prog.bind

/-- `.map_err(g)`: as in `/repo/src/implementations/primitives.rs:9`. -/
def mapErr (g : Err → Err) : Prog α → Prog α
  | .pure a => .pure a
  | .fail e => .fail (g e)
  | .panic => .panic
  | .exact n f k => .exact n (fun e => g (f e)) fun b => (k b).mapErr g
  | .take n f k => .take n (fun e => g (f e)) fun b => (k b).mapErr g

/-- The program run on a reader: `/repo/src/lib.rs:166-173`. -/
def onStream (buf : Nat → Nat) : Prog α → Stream → Res (α × Stream)
  | .pure a, s => .ok (a, s)
  | .fail e, _ => .err e
  | .panic, _ => .panic
  | .exact n f k, s => match s.readExact n with
    | .ok (b, s') => (k b).onStream buf s'
    | .err e => .err (f e)
    | .panic => .panic
  | .take n f k, s => match s.takeExact buf n with
    | .ok (b, s') => (k b).onStream buf s'
    | .err e => .err (f e)
    | .panic => .panic

/-- The program run on a slice: both operations hand out the bytes, or fail with `UnexpectedEof`:
`/repo/src/lib.rs:176-182`. -/
def onSlice : Prog α → Rd α
  | .pure a => Pure.pure a
  | .fail e => Rd.fail e
  | .panic => Rd.panic
  | .exact n f k => do
    let b ← (Rd.readExact n).mapErr f
    (k b).onSlice
  | .take n f k => do
    let b ← (Rd.readExact n).mapErr f
    (k b).onSlice

/-- `reader.read_exact(&mut buf).map_err(Error::Io)?`: `/repo/src/implementations/primitives.rs:9`. -/
def readExact (n : Nat) : Prog Bytes := .exact n (fun e => e) .pure

/-- `reader.take(n).read_to_end(&mut vec).map_err(Error::Io)?` with the length check:
`/repo/src/implementations/specialised.rs:157-161`. -/
def takeExact (n : Nat) : Prog Bytes := .take n (fun e => e) .pure

/-- `read_buffer::<1, _>(reader)?[0]`: `/repo/src/implementations/primitives.rs:7-11`. -/
def readByte : Prog UInt8 := .exact 1 (fun e => e) fun b => .pure (b.headD 0)

/-- `?` on a pure `Result`: as in `/repo/src/implementations/decimal.rs:21`. -/
def lift : Res α → Prog α
  | .ok a => .pure a
  | .err e => .fail e
  | .panic => .panic

/-- An allocation, see `Rd.alloc`: as in `/repo/src/implementations/vecs.rs:122`. -/
def alloc (ok : Bool) : Prog Unit := if ok then .pure () else .panic

/-- `let _ = m(reader)?; Ok(())`: as in `/repo/src/implementations/skip.rs:18-35`. -/
def discard (m : Prog α) : Prog Unit := do
  let _ ← m
  pure ()

/-- `for _ in 0..n { out.push(m(reader)?) }`: as in `/repo/src/implementations/vecs.rs:123-131`. -/
def readN (n : Nat) (m : Prog α) : Prog (List α) :=
  match n with
  | 0 => pure []
  | n + 1 => do
    let a ← m
    let as ← readN n m
    pure (a :: as)

/-- `for _ in 0..n { m(reader)?; }`: as in `/repo/src/implementations/skip.rs:268-272`. -/
def repeatN (n : Nat) (m : Prog Unit) : Prog Unit :=
  match n with
  | 0 => pure ()
  | n + 1 => do
    m
    repeatN n m

/-- Models `advance_read`, `/repo/src/slice_reader.rs:11-19`. -/
def advance (len : Nat) : Prog Unit :=
  if _h : len = 0 then .pure ()
  else .exact (min len 4096) (fun e => e) fun _ => advance (len - min len 4096)
termination_by len
decreasing_by omega

/-! ### Integers, `/repo/src/implementations/primitives.rs` -/

/-- `uN::from_le_bytes(read_buffer::<n, _>(reader)?) as uW`:
`/repo/src/implementations/primitives.rs:7-11`, `:96-106`. -/
def readLE (w n : Nat) : Prog (BitVec w) := do
  let b ← readExact n
  pure (BitVec.ofNat w (leVal b))

/-- Models `decode_u64`, `/repo/src/implementations/primitives.rs:88-111`. -/
def decodeU64 : Prog (BitVec 64) := do
  let b ← readByte
  if b = 251 then readLE 64 2
  else if b = 252 then readLE 64 4
  else if b = 253 then readLE 64 8
  else if b = 254 then .fail .integerOverflow
  else if b = 255 then .fail .invalidIntegerEncoding
  else pure (BitVec.ofNat 64 b.toNat)

/-- Models `decode_u128`, `/repo/src/implementations/primitives.rs:114-140`. -/
def decodeU128 : Prog (BitVec 128) := do
  let b ← readByte
  if b = 251 then readLE 128 2
  else if b = 252 then readLE 128 4
  else if b = 253 then readLE 128 8
  else if b = 254 then readLE 128 16
  else if b = 255 then .fail .invalidIntegerEncoding
  else pure (BitVec.ofNat 128 b.toNat)

/-- `DeserializeRevisioned` of every integer type,
`/repo/src/implementations/primitives.rs:177-587`; the same cases as `Revision.decInt`. -/
def decInt (cfg : Cfg) : (k : IntTy) → Prog (BitVec k.bits)
  | .u8 => readLE 8 1
  | .i8 => readLE 8 1
  | .u16 => if cfg.fixedWidth then readLE 16 2 else do
      let x ← decodeU64
      lift (tryIntoU 16 x)
  | .u32 => if cfg.fixedWidth then readLE 32 4 else do
      let x ← decodeU64
      lift (tryIntoU 32 x)
  | .u64 => if cfg.fixedWidth then readLE 64 8 else decodeU64
  | .usize => if cfg.fixedWidth then readLE 64 8 else decodeU64
  | .u128 => if cfg.fixedWidth then readLE 128 16 else decodeU128
  | .i16 => if cfg.fixedWidth then do
        let x ← readLE 64 2
        pure ((gazgiz x).setWidth 16)
      else do
        let x ← decodeU64
        lift (tryIntoI 16 (gazgiz x))
  | .i32 => if cfg.fixedWidth then do
        let x ← readLE 64 4
        pure ((gazgiz x).setWidth 32)
      else do
        let x ← decodeU64
        lift (tryIntoI 32 (gazgiz x))
  | .i64 => do
      let x ← if cfg.fixedWidth then readLE 64 8 else decodeU64
      pure (gazgiz x)
  | .isize => do
      let x ← if cfg.fixedWidth then readLE 64 8 else decodeU64
      pure (gazgiz x)
  | .i128 => do
      let x ← if cfg.fixedWidth then readLE 128 16 else decodeU128
      pure (gazgiz x)

/-- Length prefixes: `usize::deserialize_revisioned(reader)`: `/repo/src/implementations/primitives.rs:177-185`. -/
def readLen (cfg : Cfg) : Prog Nat := do
  let n ← decInt cfg .usize
  pure n.toNat

/-- `u32::deserialize_revisioned(reader)`: `/repo/src/implementations/primitives.rs:323-339`. -/
def readU32 (cfg : Cfg) : Prog Nat := do
  let n ← decInt cfg .u32
  pure n.toNat

/-- `bool`, `/repo/src/implementations/primitives.rs:151-161`. -/
def decBool : Prog Bool := do
  let b ← readByte
  if b = 0 then pure false
  else if b = 1 then pure true
  else .fail (.invalidBool b)

/-! ### Standard-library types -/

/-- `String` and `PathBuf` payloads: one `read_exact`, `/repo/src/implementations/string.rs:21-34`. -/
def readBytes (cfg : Cfg) (cap : Nat → Bool) : Prog Bytes := do
  let n ← readLen cfg
  if n = 0 then pure []
  else do
    alloc (cap n)
    readExact n

/-- `Bytes` and `Vec<u8>` payloads: `take(len).read_to_end`,
`/repo/src/implementations/bytes.rs:19-31`, `specialised.rs:144-165`. -/
def takeBytes (cfg : Cfg) (cap : Nat → Bool) : Prog Bytes := do
  let n ← readLen cfg
  if n = 0 then pure []
  else do
    alloc (cap n)
    takeExact n

/-- `skip_revisioned` of `String`, `Bytes` and bulk `Vec<u8>`/`Vec<i8>`,
`/repo/src/implementations/skip.rs:60-64`, `:243-247`, `:866-870`. -/
def skipBytes (cfg : Cfg) : Prog Unit := do
  let n ← readLen cfg
  advance n

/-- `String`, `/repo/src/implementations/string.rs:21-34`. -/
def decString (cfg : Cfg) (cap : Nat → Bool) : Prog String := do
  let b ← readBytes cfg cap
  lift (fromUtf8 b)

/-- `char`, `/repo/src/implementations/string.rs:66-84`. -/
def decChar : Prog Char := do
  let b ← readByte
  let len := charLen b
  if len = 0 then .fail .invalidChar
  else do
    let rest ← readExact (len - 1)
    match fromUtf8 (b :: rest) with
    | .ok s => match s.toList with
      | c :: _ => pure c
      | [] => .panic
    | _ => .fail .invalidChar

/-- `Option<T>`, `/repo/src/implementations/option.rs:22-36`. -/
def decOption (cfg : Cfg) (m : Prog α) : Prog (Option α) := do
  let t ← decInt cfg .u8
  if t = 0 then pure none
  else if t = 1 then do
    let a ← m
    pure (some a)
  else .fail .deserialize

/-- Skip of `Option<T>`, `/repo/src/implementations/skip.rs:355-383`. -/
def skipOption (cfg : Cfg) (m : Prog Unit) : Prog Unit := do
  let t ← decInt cfg .u8
  if t = 0 then pure ()
  else if t = 1 then m
  else .fail .deserialize

/-- `Result<T, E>`, `/repo/src/implementations/result.rs:23-35`. -/
def decResult (cfg : Cfg) (m : Prog α) (d : Prog β) : Prog (Except β α) := do
  let t ← readU32 cfg
  if t = 0 then do
    let a ← m.mapErr toDeserialize
    pure (.ok a)
  else if t = 1 then do
    let e ← d.mapErr toDeserialize
    pure (.error e)
  else .fail .deserialize

/-- Skip of `Result<T, E>`, `/repo/src/implementations/skip.rs:385-415`. -/
def skipResult (cfg : Cfg) (m d : Prog Unit) : Prog Unit := do
  let t ← readU32 cfg
  if t = 0 then m else if t = 1 then d else .fail .deserialize

/-- `Bound<T>`, `/repo/src/implementations/bound.rs:25-42`. -/
def decBound (cfg : Cfg) (m : Prog α) : Prog (Bnd α) := do
  let t ← readU32 cfg
  if t = 0 then pure .unbounded
  else if t = 1 then do
    let a ← m.mapErr toDeserialize
    pure (.included a)
  else if t = 2 then do
    let a ← m.mapErr toDeserialize
    pure (.excluded a)
  else .fail .deserialize

/-- Skip of `Bound<T>`, `/repo/src/implementations/skip.rs:537-567`. -/
def skipBound (cfg : Cfg) (m : Prog Unit) : Prog Unit := do
  let t ← readU32 cfg
  if t = 0 then pure () else if t = 1 then m else if t = 2 then m
  else .fail .deserialize

/-- Element-wise `Vec<T>`, `/repo/src/implementations/vecs.rs:108-133`. -/
def decVec (cfg : Cfg) (cap : Nat → Bool) (m : Prog α) : Prog (List α) := do
  let n ← readLen cfg
  if n = 0 then pure []
  else do
    alloc (cap n)
    readN n m

/-- Element-wise skips, `/repo/src/implementations/skip.rs:268-272`, `:609-769`. -/
def skipElems (cfg : Cfg) (m : Prog Unit) : Prog Unit := do
  let n ← readLen cfg
  repeatN n m

/-- Bulk `Vec<T>` on a little-endian machine, `/repo/src/implementations/specialised.rs:86-108`,
`uuid.rs:70-94`: one `read_exact` for all elements; `Vec<u8>` and `Vec<i8>` (`w = 1`) read through
`take(len).read_to_end` instead, without the multiplication (`specialised.rs:144-165`, `:190-215`). -/
def decBulk (cfg : Cfg) (cap : Nat → Bool) (W w : Nat) : Prog (List (BitVec W)) := do
  let n ← readLen cfg
  if n = 0 then pure []
  else if w = 1 then do
    alloc (cap n)
    let b ← takeExact n
    pure ((splitN w n b).map fun e => BitVec.ofNat W (leVal e))
  else if n * w < 2 ^ 64 then do
    alloc (cap n)
    let b ← readExact (n * w)
    pure ((splitN w n b).map fun e => BitVec.ofNat W (leVal e))
  else .fail .integerOverflow

/-- Bulk `Vec<T>` on a big-endian machine, `/repo/src/implementations/specialised.rs:109-125`: element by
element, without the multiplication check. -/
def decBulkBE (cfg : Cfg) (cap : Nat → Bool) (W w : Nat) : Prog (List (BitVec W)) := do
  let n ← readLen cfg
  if n = 0 then pure []
  else do
    alloc (cap n)
    readN n (readLE W w)

/-- Skip of a bulk `Vec<T>`, `/repo/src/implementations/skip.rs:220-266`. -/
def skipBulk (cfg : Cfg) (w : Nat) : Prog Unit := do
  let n ← readLen cfg
  if n * w < 2 ^ 64 then advance (n * w) else .fail .integerOverflow

/-- Bit-packed `Vec<bool>`, `/repo/src/implementations/specialised.rs:252-277`. -/
def decBools (cfg : Cfg) (cap : Nat → Bool) : Prog (List Bool) := do
  let n ← readLen cfg
  if n = 0 then pure []
  else do
    alloc (cap (divCeil8 n))
    let b ← readExact (divCeil8 n)
    alloc (cap n)
    pure (unpackBools n b)

/-- Skip of a bit-packed `Vec<bool>`, `/repo/src/implementations/skip.rs:236-241`. -/
def skipBools (cfg : Cfg) : Prog Unit := do
  let n ← readLen cfg
  advance (divCeil8 n)

/-- The reading loop shared by the collections, see `Revision.readColl`:
`/repo/src/implementations/collections.rs:40-52`, `:88-105`. -/
def readColl (cfg : Cfg) (cap : Nat → Bool) (elem : Prog α) (build : List α → β) : Prog β := do
  let n ← readLen cfg
  alloc (cap n)
  let l ← readN n elem
  pure (build l)

/-- `(A, B)`, `/repo/src/implementations/tuple.rs:4-88`. -/
def decPair (a : Prog α) (b : Prog β) : Prog (α × β) := do
  let x ← a
  let y ← b
  pure (x, y)

/-- Two skips in a row, `/repo/src/implementations/skip.rs:173-206`. -/
def skipPair (a b : Prog Unit) : Prog Unit := do
  a
  b

/-- `std::time::Duration`, `/repo/src/implementations/duration.rs:16-23`. -/
def decDuration (cfg : Cfg) : Prog (BitVec 64 × BitVec 32) := do
  let secs ← decInt cfg .u64
  let nanos ← decInt cfg .u32
  lift (durationNew secs nanos)

/-- `std::time::SystemTime`, `/repo/src/implementations/system_time.rs:18-25`. -/
def decSystemTime (cfg : Cfg) : Prog (BitVec 64 × BitVec 32) := do
  let secs ← decInt cfg .u64
  let nanos ← decInt cfg .u32
  let d ← lift (durationNew secs nanos)
  if d.1.toNat < 2 ^ 63 then pure d else .panic

/-- Skip of `SystemTime`, `/repo/src/implementations/skip.rs:108-130`. -/
def skipSystemTime (cfg : Cfg) : Prog Unit := do
  (decInt cfg .u64).discard
  (decInt cfg .u32).discard

/-- `NotNan<f32>` and `NotNan<f64>`, `/repo/src/implementations/notnan.rs:16-26`. -/
def decNotNan (n : Nat) : Prog (BitVec (8 * n)) := do
  let v ← readLE (8 * n) n
  if isNaN n v then .fail .deserialize else pure v

end Prog

/-- The dispatch of `Vec<T>::deserialize_revisioned`, `/repo/src/implementations/vecs.rs:84-106`. -/
def vecP (cfg : Cfg) (E : Env ι) : (t : Ty ι) → Prog (t.denote E.X) → Prog (List (t.denote E.X))
  | .bool, m => if cfg.specialised then .decBools cfg (E.cap .bool) else .decVec cfg (E.cap .bool) m
  | .int k, m =>
    if cfg.specialised && k != .usize && k != .isize then
      .decBulk cfg (E.cap (.int k)) k.bits (k.bits / 8)
    else .decVec cfg (E.cap (.int k)) m
  | .float f, m =>
    if cfg.specialised then .decBulk cfg (E.cap (.float f)) (8 * f.bytes) f.bytes
    else .decVec cfg (E.cap (.float f)) m
  | .uuid, m =>
    if cfg.specialised then .decBulk cfg (E.cap .uuid) 128 16 else .decVec cfg (E.cap .uuid) m
  | t, m => .decVec cfg (E.cap t) m

/-- The dispatch of `Vec<T>::skip_revisioned`, `/repo/src/implementations/skip.rs:212-272`. -/
def vecSkipP (cfg : Cfg) : Ty ι → Prog Unit → Prog Unit
  | .bool, m => if cfg.specialised then .skipBools cfg else .skipElems cfg m
  | .int k, m =>
    if cfg.specialised && k != .usize && k != .isize then .skipBulk cfg (k.bits / 8)
    else .skipElems cfg m
  | .float f, m => if cfg.specialised then .skipBulk cfg f.bytes else .skipElems cfg m
  | .uuid, m => if cfg.specialised then .skipBulk cfg 16 else .skipElems cfg m
  | _, m => .skipElems cfg m

/-- `T::deserialize_revisioned(reader)` for any reader; `ext i` gives the programs of the further
types: the impls of `/repo/src/implementations/mod.rs:1-31`. -/
def Ty.decP (cfg : Cfg) (E : Env ι) (ext : (i : ι) → Prog (E.X i)) : (t : Ty ι) → Prog (t.denote E.X)
  | .unit => .pure ()
  | .bool => .decBool
  | .int k => .decInt cfg k
  | .float f => .readLE (8 * f.bytes) f.bytes
  | .char => .decChar
  | .string => .decString cfg (E.cap (.int .u8))
  | .path => do
    let s ← Prog.decString cfg (E.cap (.int .u8))
    pure (strBytes s)
  | .bytes => .takeBytes cfg (E.cap (.int .u8))
  | .uuid => .readLE 128 16
  | .duration => .decDuration cfg
  | .systemTime => .decSystemTime cfg
  | .notNan f => .decNotNan f.bytes
  | .option t => .decOption cfg (t.decP cfg E ext)
  | .result t e => .decResult cfg (t.decP cfg E ext) (e.decP cfg E ext)
  | .bound t => .decBound cfg (t.decP cfg E ext)
  | .wrap t => t.decP cfg E ext
  | .pair s t => .decPair (s.decP cfg E ext) (t.decP cfg E ext)
  | .array n t => .readN n (t.decP cfg E ext)
  | .vec t => vecP cfg E t (t.decP cfg E ext)
  | .btreeMap k v => .readColl cfg (E.cap (.pair k v)) (.decPair (k.decP cfg E ext) (v.decP cfg E ext))
      (btreeBuild (E.cmp k) Prod.fst)
  | .btreeSet k => .readColl cfg (E.cap k) (k.decP cfg E ext) (btreeBuild (E.cmp k) id)
  | .hashMap k v => .readColl cfg (E.cap (.pair k v)) (.decPair (k.decP cfg E ext) (v.decP cfg E ext))
      (fun l => l.foldl (hashInsert (E.eq k)) [])
  | .hashSet k => .readColl cfg (E.cap k) (k.decP cfg E ext)
      (fun l => l.foldl (hashSetInsert (E.eq k)) [])
  | .binaryHeap t => .readColl cfg (E.cap t) (t.decP cfg E ext)
      (fun l => l.foldl (heapPush (E.cmp t)) [])
  | .vector t => .readColl cfg (E.cap t) (t.decP cfg E ext) (fun l => l)
  | .ext i => ext i

/-- `T::skip_revisioned(reader)` for any reader; the impls of `/repo/src/implementations/skip.rs`. -/
def Ty.skipP (cfg : Cfg) (E : Env ι) (ext : (i : ι) → Prog Unit) : (t : Ty ι) → Prog Unit
  | .unit => Prog.discard (.pure ())
  | .bool => Prog.decBool.discard
  | .int k => (Prog.decInt cfg k).discard
  | .float f => (Prog.readLE (8 * f.bytes) f.bytes).discard
  | .char => Prog.decChar.discard
  | .string => .skipBytes cfg
  | .path => Prog.discard do
    let s ← Prog.decString cfg (E.cap (.int .u8))
    pure (strBytes s)
  | .bytes => .skipBytes cfg
  | .uuid => .advance 16
  | .duration => (Prog.decDuration cfg).discard
  | .systemTime => .skipSystemTime cfg
  | .notNan f => (Prog.readLE (8 * f.bytes) f.bytes).discard
  | .option t => .skipOption cfg (t.skipP cfg E ext)
  | .result t e => .skipResult cfg (t.skipP cfg E ext) (e.skipP cfg E ext)
  | .bound t => .skipBound cfg (t.skipP cfg E ext)
  | .wrap t => t.skipP cfg E ext
  | .pair s t => .skipPair (s.skipP cfg E ext) (t.skipP cfg E ext)
  | .array n t => .repeatN n (t.skipP cfg E ext)
  | .vec t => vecSkipP cfg t (t.skipP cfg E ext)
  | .btreeMap k v => .skipElems cfg (.skipPair (k.skipP cfg E ext) (v.skipP cfg E ext))
  | .btreeSet k => .skipElems cfg (k.skipP cfg E ext)
  | .hashMap k v => .skipElems cfg (.skipPair (k.skipP cfg E ext) (v.skipP cfg E ext))
  | .hashSet k => .skipElems cfg (k.skipP cfg E ext)
  | .binaryHeap t => .skipElems cfg (t.skipP cfg E ext)
  | .vector t => .skipElems cfg (t.skipP cfg E ext)
  | .ext i => ext i

/-- `T::skip_check_revisioned(reader)` for any reader, `/repo/src/implementations/skip.rs`: tuples,
ranges and arrays check their parts (`:81-106`, `:132-206`), `SystemTime` skips (`:108-130`), the
others decode and drop the value. -/
def Ty.checkP (cfg : Cfg) (E : Env ι) (ext : (i : ι) → Prog (E.X i)) (extCheck : (i : ι) → Prog Unit) :
    (t : Ty ι) → Prog Unit
  | .pair s t => .skipPair (s.checkP cfg E ext extCheck) (t.checkP cfg E ext extCheck)
  | .array n t => .repeatN n (t.checkP cfg E ext extCheck)
  | .systemTime => .skipSystemTime cfg
  | .ext i => extCheck i
  | t => (t.decP cfg E ext).discard

end Revision
