import Verif.Model.Codec

/-!
# Slice readers

Models `/repo/src/slice_reader.rs`.  Unlike `Rd`, the operations here keep the reader's state
after an error, because the callers of this API can go on using the reader.
-/

namespace Revision

/-- Models the loop of `advance_read`, `/repo/src/slice_reader.rs:11-19`, over the reader's own
`read_exact`: at most 4096 bytes at a time. -/
def advanceWith (readExact : Nat → Rd Bytes) (len : Nat) : Rd Unit :=
  if _h : len = 0 then pure ()
  else do
    let _ ← readExact (min len 4096)
    advanceWith readExact (len - min len 4096)
termination_by len
decreasing_by omega

/-- `advance_read` on a slice-backed reader: `/repo/src/slice_reader.rs:11-19`. -/
def advanceLoop (len : Nat) : Rd Unit := advanceWith Rd.readExact len

/-- Models `struct SliceReader`, `/repo/src/slice_reader.rs:27-30`. -/
structure SliceReader where
  inner : Bytes
  originalLen : Nat
  deriving DecidableEq, Repr

namespace SliceReader

/-- Models `SliceReader::new`, `/repo/src/slice_reader.rs:34-39`. -/
def new (slice : Bytes) : SliceReader := ⟨slice, slice.length⟩

/-- Models `SliceReader::remaining`, `/repo/src/slice_reader.rs:43-45` and `:346-348`. -/
def remaining (r : SliceReader) : Bytes := r.inner

/-- Models `SliceReader::consumed_len`, `/repo/src/slice_reader.rs:49-51`, and `position`,
`:341-343`.  The subtraction would panic in a debug build if it underflowed. -/
def consumedLen (r : SliceReader) : Res Nat :=
  if r.inner.length ≤ r.originalLen then .ok (r.originalLen - r.inner.length) else .panic

/-- Models `SliceReader::consume`, `/repo/src/slice_reader.rs:55-64`, and `advance`, `:336-338`. -/
def consume (n : Nat) (r : SliceReader) : Res Unit × SliceReader :=
  if n > r.inner.length then (.err .io, r) else (.ok (), { r with inner := r.inner.drop n })

/-- Models `SliceReader::sub`, `/repo/src/slice_reader.rs:75-93`. -/
def sub (offset len : Nat) (r : SliceReader) : Res SliceReader := do
  let c ← r.consumedLen
  if offset < c then .err .io
  else
    let innerOffset := offset - c
    if 2 ^ 64 ≤ innerOffset + len then .err .io
    else
      let stop := innerOffset + len
      if stop > r.inner.length then .err .overrun
      else .ok (new ((r.inner.take stop).drop innerOffset))

/-- Models `Read::read`, `/repo/src/slice_reader.rs:96-104`, into a buffer of `n` bytes. -/
def read (n : Nat) (r : SliceReader) : Bytes × SliceReader :=
  let n := min n r.inner.length
  (r.inner.take n, { r with inner := r.inner.drop n })

/-- The provided method `Read::read_exact` on top of `read`: it asks again until the buffer is full
or a read returns nothing (the second read on a slice does): on `/repo/src/slice_reader.rs:96-104`. -/
def readExact (n : Nat) (r : SliceReader) : Res Bytes × SliceReader :=
  let (b, r) := r.read n
  if b.length = n then (.ok b, r)
  else
    let (b', r) := r.read (n - b.length)
    if b' = [] then (.err .io, r) else (.ok (b ++ b'), r)

/-- Models `BorrowedReader::peek_bytes`, `/repo/src/slice_reader.rs:326-333`. -/
def peek (n : Nat) (r : SliceReader) : Res Bytes :=
  if n ≤ r.inner.length then .ok (r.inner.take n) else .err .io

/-- Models `take_bytes_reader`, `/repo/src/slice_reader.rs:403-416`. -/
def takeBytes (n : Nat) (r : SliceReader) : Res Bytes × SliceReader :=
  if n > r.inner.length then (.err .io, r)
  else (.ok (r.inner.take n), { r with inner := r.inner.drop n })

/-- Models `read_borrowed_bytes`, `/repo/src/slice_reader.rs:365-381`: peek, then advance. -/
def readBorrowed (n : Nat) (r : SliceReader) : Res Bytes × SliceReader :=
  match r.peek n with
  | .ok b => match r.consume n with
    | (.ok (), r) => (.ok b, r)
    | (.err e, r) => (.err e, r)
    | (.panic, r) => (.panic, r)
  | .err e => (.err e, r)
  | .panic => (.panic, r)

end SliceReader

/-- The calls a user can make on a reader: `/repo/src/slice_reader.rs:32-104`, `:321-349`, `:365-414`. -/
inductive ROp where
  | consume (n : Nat)
  | sub (offset len : Nat)
  | read (n : Nat)
  | readExact (n : Nat)
  | peek (n : Nat)
  | take (n : Nat)
  | borrow (n : Nat)
  | position
  | remaining
  deriving DecidableEq, Repr

/-- What a call returns: `/repo/src/slice_reader.rs:32-104`, `:321-349`, `:365-414`. -/
inductive ROut where
  | unit
  | bytes (b : Bytes)
  | nat (n : Nat)
  /-- a sub-reader, observed through the bytes it covers -/
  | reader (r : SliceReader)
  deriving DecidableEq, Repr

/-- One call on a `SliceReader`: `/repo/src/slice_reader.rs:32-104`, `:321-349`, `:365-414`. -/
def SliceReader.step (r : SliceReader) : ROp → Res ROut × SliceReader
  | .consume n => let (x, r) := r.consume n; ((fun _ => .unit) <$> x, r)
  | .sub o l => (.reader <$> r.sub o l, r)
  | .read n => let (b, r) := r.read n; (.ok (.bytes b), r)
  | .readExact n => let (x, r) := r.readExact n; (.bytes <$> x, r)
  | .peek n => (.bytes <$> r.peek n, r)
  | .take n => let (x, r) := r.takeBytes n; (.bytes <$> x, r)
  | .borrow n => let (x, r) := r.readBorrowed n; (.bytes <$> x, r)
  | .position => (.nat <$> r.consumedLen, r)
  | .remaining => (.ok (.bytes r.remaining), r)

/-- A history of calls: everything they return, and the final reader:
any use of `/repo/src/slice_reader.rs:32-104`, `:321-349`. -/
def SliceReader.run (r : SliceReader) : List ROp → List (Res ROut) × SliceReader
  | [] => ([], r)
  | op :: ops =>
    let (x, r) := r.step op
    let (xs, r) := r.run ops
    (x :: xs, r)

/-- One call on a bare `&[u8]` used as a reader: `BorrowedReader for &[u8]`,
`/repo/src/slice_reader.rs:251-287`, `take_bytes_slice`, `:389-399`, and std's
`impl Read for &[u8]` (whose `read_exact` empties the slice when it fails).  There is no `sub`, and `position` is always 0. -/
def sliceStep (s : Bytes) : ROp → Res ROut × Bytes
  | .consume n => if n > s.length then (.err .io, s) else (.ok .unit, s.drop n)
  | .sub _ _ => (.err .contractViolation, s)
  | .read n => (.ok (.bytes (s.take n)), s.drop n)
  | .readExact n => if n > s.length then (.err .io, []) else (.ok (.bytes (s.take n)), s.drop n)
  | .peek n => if n ≤ s.length then (.ok (.bytes (s.take n)), s) else (.err .io, s)
  | .take n => if n > s.length then (.err .io, s) else (.ok (.bytes (s.take n)), s.drop n)
  | .borrow n => if n ≤ s.length then (.ok (.bytes (s.take n)), s.drop n) else (.err .io, s)
  | .position => (.ok (.nat 0), s)
  | .remaining => (.ok (.bytes s), s)

/-- A history of calls on a bare `&[u8]`: any use of `/repo/src/slice_reader.rs:251-287`. -/
def sliceRun (s : Bytes) : List ROp → List (Res ROut) × Bytes
  | [] => ([], s)
  | op :: ops =>
    let (x, s) := sliceStep s op
    let (xs, s) := sliceRun s ops
    (x :: xs, s)

end Revision
