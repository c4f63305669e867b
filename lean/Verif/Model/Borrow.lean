import Verif.Model.Unsafe

/-!
# `BorrowedReader`: slices that outlive the calls that returned them

`read_borrowed_bytes` and the walkers make references of raw pointers into the memory of a reader, which is an arbitrary
implementation of an `unsafe trait`.  Here a reader comes with the memory it sees.
-/

namespace Revision.Borrow

open Unsafe

/-- The allocations that are live, with their bytes:
what the contract of `/repo/src/slice_reader.rs:120-182` is about. -/
def Mem := Nat → Option Bytes

/-- A `&[u8]` or a pointer and a length: an allocation, the position in it and the number of bytes:
what `/repo/src/slice_reader.rs:189`, `:236` return. -/
structure Slice where
  alloc : Nat
  off : Nat
  len : Nat
  deriving DecidableEq, Repr

/-- The bytes of a slice, if it lies in a live allocation:
what a reference made at `/repo/src/slice_reader.rs:365-381` shows. -/
def Mem.load (m : Mem) (p : Slice) : Option Bytes :=
  match m p.alloc with
  | some b => if p.off + p.len ≤ b.length then some ((b.drop p.off).take p.len) else none
  | none => none

/-- An implementation of `Read` and `BorrowedReader`, `/repo/src/slice_reader.rs:183-244`: its methods, and the memory in
each of its states.  The methods that take `&self` may change the state too (a `Cell`).  A slice that is returned is live
when it is returned: the borrow checker sees to that.  `position` plays no part here.  Simplified: `peek_bytes`,
`remaining` and `read` do not panic. -/
structure Reader (σ : Type) where
  mem : σ → Mem
  peek : σ → Nat → Res Slice × σ
  advance : σ → Nat → Res Unit × σ
  read : σ → Nat → Res Bytes × σ
  remaining : σ → Slice × σ
  peek_live : ∀ {s n p s'}, peek s n = (.ok p, s') → (mem s').load p ≠ none
  remaining_live : ∀ {s p s'}, remaining s = (p, s') → (mem s').load p ≠ none

variable {σ α : Type}

/-- A value or an error of a safe call: as in `/repo/src/slice_reader.rs:189-199`. -/
def ofRes : Res α → Out α
  | .ok a => .ok a
  | .err e => .err e
  | .panic => .panic

/-- Calls of the methods: `/repo/src/slice_reader.rs:189`. -/
def callPeek (R : Reader σ) (n : Nat) : Run σ Slice := ⟨fun s => (ofRes (R.peek s n).1, (R.peek s n).2)⟩
/-- See `callPeek`, `/repo/src/slice_reader.rs:199`. -/
def callAdvance (R : Reader σ) (n : Nat) : Run σ Unit := ⟨fun s => (ofRes (R.advance s n).1, (R.advance s n).2)⟩
/-- See `callPeek`, `/repo/src/slice_reader.rs:236`. -/
def callRemaining (R : Reader σ) : Run σ Slice := ⟨fun s => (.ok (R.remaining s).1, (R.remaining s).2)⟩

/-- `std::slice::from_raw_parts(ptr, n)`, with the pointer of `p`: the `n` bytes must be in one live allocation:
`/repo/src/slice_reader.rs:365-381`. -/
def fromRaw (R : Reader σ) (p : Slice) (n : Nat) : Run σ Slice :=
  ⟨fun s => (if ((R.mem s).load ⟨p.alloc, p.off, n⟩).isSome then .ok ⟨p.alloc, p.off, n⟩ else .ub, s)⟩

/-- Models `read_borrowed_bytes`, `/repo/src/slice_reader.rs:365-381`. -/
def readBorrowed (R : Reader σ) (n : Nat) : Run σ Slice := do
  let peeked ← callPeek R n
  callAdvance R n
  fromRaw R peeked n

/-- Code generic over `R: BorrowedReader` that has no `unsafe` of its own (`skip_indexed_map` and its like,
`/repo/src/optimised/indexed/serialize.rs:862-930`, and the generated `skip`s): it calls the methods and sees what they
return. -/
inductive Client (α : Type) where
  | ret (a : α)
  | fail (e : Err)
  | panic
  | peek (n : Nat) (k : Res Bytes → Client α)
  | advance (n : Nat) (k : Res Unit → Client α)
  | read (n : Nat) (k : Res Bytes → Client α)
  | remaining (k : Bytes → Client α)

/-- What a slice shows: what a caller of `/repo/src/slice_reader.rs:365-381` sees. -/
def shown (R : Reader σ) (s : σ) : Res Slice → Res Bytes
  | .ok p => .ok (((R.mem s).load p).getD [])
  | .err e => .err e
  | .panic => .panic

/-- The client at work on a reader: any caller of `/repo/src/slice_reader.rs:365-381`. -/
def Client.on (R : Reader σ) : Client α → σ → Out α × σ
  | .ret a, s => (.ok a, s)
  | .fail e, s => (.err e, s)
  | .panic, s => (.panic, s)
  | .peek n k, s => (k (shown R (R.peek s n).2 (R.peek s n).1)).on R (R.peek s n).2
  | .advance n k, s => (k (R.advance s n).1).on R (R.advance s n).2
  | .read n k, s => (k (R.read s n).1).on R (R.read s n).2
  | .remaining k, s => (k (((R.mem (R.remaining s).2).load (R.remaining s).1).getD [])).on R (R.remaining s).2

/-- The fast path of the generated `walk_<field>` and `into_<field>_bytes` on the wire,
`/repo/revision-derive/src/expand/walk.rs:668-710` and `:974-1006`: the unread bytes before and after the field is skipped
tell how many bytes the field has. -/
def wirePath (R : Reader σ) (skip : Client Unit) : Run σ Slice := do
  let before ← callRemaining R
  ⟨skip.on R⟩
  let after ← callRemaining R
  if after.len ≤ before.len then fromRaw R before (before.len - after.len)
  else fail .contractViolation

/-! ### The readers of the crate -/

/-- `&'a [u8]`, `/repo/src/slice_reader.rs:251-287`, and `SliceReader<'a>`, `:324-349` (whose cursor is such a slice): the
state is the position in the caller's bytes `b`, which are the allocation 0. -/
def sliceReader (b : Bytes) : Reader (Fin (b.length + 1)) where
  mem _ := fun id => if id = 0 then some b else none
  peek s n := (if s.val + n ≤ b.length then .ok ⟨0, s.val, n⟩ else .err .io, s)
  advance s n := if h : s.val + n ≤ b.length then (.ok (), ⟨s.val + n, by omega⟩) else (.err .io, s)
  read s n := (.ok ((b.drop s.val).take n), ⟨min (s.val + n) b.length, by omega⟩)
  remaining s := (⟨0, s.val, b.length - s.val⟩, s)
  peek_live := by
    intro s n p s' h
    injection h with h _
    split at h
    · rename_i hn
      injection h with h; subst h
      simp [Mem.load, hn]
    · cases h
  remaining_live := by
    intro s p s' h
    injection h with h _
    subst h
    have := s.isLt
    simp only [Mem.load, if_true]
    rw [if_pos (by omega)]
    exact nofun

/-- `&mut R`, `/repo/src/slice_reader.rs:299-319`: every method forwards. -/
def Reader.byMut (R : Reader σ) : Reader σ where
  mem := R.mem
  peek s n := R.peek s n
  advance s n := R.advance s n
  read s n := R.read s n
  remaining s := R.remaining s
  peek_live := R.peek_live
  remaining_live := R.remaining_live

/-- A reader without a `remaining` of its own, `/repo/src/slice_reader.rs:234-243`, in a release build: `&[]`.  The
allocation `z` stands for the static empty slice. -/
def Reader.withoutRemaining (R : Reader σ) (z : Nat) (hz : ∀ s, (R.mem s z).isSome = true) : Reader σ where
  mem := R.mem
  peek := R.peek
  advance := R.advance
  read := R.read
  remaining s := (⟨z, 0, 0⟩, s)
  peek_live := R.peek_live
  remaining_live := by
    intro s p s' h
    injection h with h _
    subst h
    have := hz s'
    unfold Mem.load
    cases h : R.mem s' z with
    | some b => simp
    | none => rw [h] at this; cases this

end Revision.Borrow
