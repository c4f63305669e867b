/-!
# Bytes, results and readers

The execution model shared by every other module.

* `Bytes` is the unread part of a byte slice (`&[u8]` / `SliceReader`), or the
  bytes a `Vec<u8>` writer has received.
* `Res` is a Rust `Result<_, Error>` extended with the outcome `panic`.
* `Rd a` is a function reading from a slice-backed `std::io::Read`.
-/

namespace Revision

/-- A byte buffer.  Models `&[u8]` / `Vec<u8>`: the buffers of `/repo/src/lib.rs:72-87`, `:176-202`. -/
abbrev Bytes := List UInt8

/-- Models `enum Error`, `/repo/src/error.rs:6-48`.
Simplification: the human-readable strings inside `Io`, `Utf8Error`, `Serialize`,
`Deserialize`, `Conversion` and `BorrowedReaderContractViolation` are dropped. -/
inductive Err where
  | io
  | invalidBool (b : UInt8)
  | invalidIntegerEncoding
  | integerOverflow
  | invalidPath
  | invalidChar
  | utf8
  | serialize
  | deserialize
  | conversion
  | invalidTag (b : UInt8)
  | offsetOutOfRange (offset len : Nat)
  | offsetsNonMonotonic
  | keysNotAscending
  | overrun
  | contractViolation
  deriving DecidableEq, Repr

/-- The outcome of running a Rust function returning `Result<a, Error>`:
normal return, returned error, or panic:
the results of every function here, as in `/repo/src/lib.rs:32-47`, `:152-163`. -/
inductive Res (α : Type u) where
  | ok (a : α)
  | err (e : Err)
  | panic
  deriving DecidableEq, Repr

namespace Res

/-- `?`-style sequencing: errors and panics propagate:
every `?`, as in `/repo/src/implementations/primitives.rs:284-297`. -/
@[inline] protected def bind (x : Res α) (f : α → Res β) : Res β :=
  match x with
  | ok a => f a
  | err e => err e
  | panic => panic

instance : Monad Res where
  pure := ok
  bind := Res.bind

/-- Models `Result::map_err`: as in `/repo/src/implementations/primitives.rs:9`, `:290`. -/
def mapErr (f : Err → Err) : Res α → Res α
  | ok a => ok a
  | err e => err (f e)
  | panic => panic

@[simp] theorem pure_def (a : α) : (pure a : Res α) = ok a := rfl
@[simp] theorem ok_bind (a : α) (f : α → Res β) : (ok a >>= f) = f a := rfl
@[simp] theorem err_bind (e : Err) (f : α → Res β) : ((err e : Res α) >>= f) = err e := rfl
@[simp] theorem panic_bind (f : α → Res β) : ((panic : Res α) >>= f) = panic := rfl

theorem bind_eq_ok {x : Res α} {f : α → Res β} {b : β} :
    (x >>= f) = ok b ↔ ∃ a, x = ok a ∧ f a = ok b := by
  cases x <;> simp

@[simp] theorem map_ok (f : α → β) (a : α) : (f <$> (ok a : Res α)) = ok (f a) := rfl
@[simp] theorem map_err' (f : α → β) (e : Err) : (f <$> (err e : Res α)) = err e := rfl
@[simp] theorem map_panic (f : α → β) : (f <$> (panic : Res α)) = panic := rfl

end Res

/-- A computation over a slice-backed reader: takes the unread bytes, returns the
result together with the bytes still unread.
Simplification: the position of the reader after an error is not modelled:
the `&mut R` every reading function takes, `/repo/src/lib.rs:33`, `:46`, `:159`. -/
structure Rd (α : Type) where
  run : Bytes → Res (α × Bytes)

instance : CoeFun (Rd α) (fun _ => Bytes → Res (α × Bytes)) := ⟨Rd.run⟩

namespace Rd

instance : Monad Rd where
  pure a := ⟨fun s => .ok (a, s)⟩
  bind m f := ⟨fun s => match m s with
    | .ok (a, r) => f a r
    | .err e => .err e
    | .panic => .panic⟩

/-- Return an error (`return Err(e)`): as in `/repo/src/implementations/primitives.rs:108`, `:158`. -/
def fail (e : Err) : Rd α := ⟨fun _ => .err e⟩

/-- Panic: as the overflow of `/repo/src/implementations/duration.rs:21`. -/
def panic : Rd α := ⟨fun _ => .panic⟩

/-- Lift a reader-independent result (`?` on a pure `Result`): as in `/repo/src/implementations/decimal.rs:21`. -/
def lift (x : Res α) : Rd α := ⟨fun s => match x with
  | .ok a => .ok (a, s)
  | .err e => .err e
  | .panic => .panic⟩

/-- Models `Result::map_err` applied to the result of a read:
as in `/repo/src/implementations/primitives.rs:9` and `/repo/src/implementations/result.rs:29-31`. -/
def mapErr (f : Err → Err) (m : Rd α) : Rd α := ⟨fun s => (m s).mapErr f⟩

/-- Models `std::io::Read::read_exact` on a slice-backed reader followed by
`.map_err(Error::Io)`: `n` bytes, or `Err(Io(UnexpectedEof))`.
Models `read_buffer`, `/repo/src/implementations/primitives.rs:6-11`. -/
def readExact (n : Nat) : Rd Bytes := ⟨fun s =>
  if n ≤ s.length then .ok (s.take n, s.drop n) else .err .io⟩

/-- One byte: `read_buffer::<1, _>(reader)?[0]`: `/repo/src/implementations/primitives.rs:92`, `:118`, `:225-232`. -/
def readByte : Rd UInt8 := ⟨fun s =>
  match s with
  | b :: r => .ok (b, r)
  | [] => .err .io⟩

/-- Models `advance_read`, `/repo/src/slice_reader.rs:11-19`, in its net effect;
`Verif.Model.Reader.advanceLoop` is the loop itself and `C22` proves them equal. -/
def advance (n : Nat) : Rd Unit := ⟨fun s =>
  if n ≤ s.length then .ok ((), s.drop n) else .err .io⟩

/-- An allocation request whose acceptance is `ok`: `Vec::with_capacity(n)` and
`vec![_; n]` panic ("capacity overflow") or abort when the request is refused:
as in `/repo/src/implementations/vecs.rs:122`, `/repo/src/implementations/string.rs:31` and
`/repo/src/implementations/specialised.rs:264`. -/
def alloc (ok : Bool) : Rd Unit := if ok then pure () else panic

/-- `for _ in 0..n { out.push(m(reader)?) }`: as in `/repo/src/implementations/vecs.rs:123-131`. -/
def readN (n : Nat) (m : Rd α) : Rd (List α) :=
  match n with
  | 0 => pure []
  | n + 1 => do
    let a ← m
    let as ← readN n m
    pure (a :: as)

/-- `for _ in 0..n { m(reader)?; }`: as in `/repo/src/implementations/skip.rs:268-272`. -/
def repeatN (n : Nat) (m : Rd Unit) : Rd Unit :=
  match n with
  | 0 => pure ()
  | n + 1 => do
    m
    repeatN n m

end Rd

/-- `n` little-endian bytes of `v` modulo `256^n`.
Models `(v as uN).to_le_bytes()` with `N = 8 n`: as in `/repo/src/implementations/primitives.rs:42-52`. -/
def leBytes : Nat → Nat → Bytes
  | 0, _ => []
  | n + 1, v => UInt8.ofNat (v % 256) :: leBytes n (v / 256)

/-- Models `uN::from_le_bytes`: as in `/repo/src/implementations/primitives.rs:96-106`. -/
def leVal : Bytes → Nat
  | [] => 0
  | b :: bs => b.toNat + 256 * leVal bs

/-- The cargo features that change the wire format.
* `fixedWidth`: `fixed-width-encoding` (off by default),
* `specialised`: `specialised-vectors` (on by default):
`/repo/Cargo.toml:32-35`, tested as in `/repo/src/implementations/primitives.rs:269-279` and
`/repo/src/implementations/vecs.rs:21-52`. -/
structure Cfg where
  fixedWidth : Bool
  specialised : Bool
  deriving DecidableEq, Repr

end Revision
