import Verif.Model.Borrow
import Verif.Spec.Unsafe

/-!
# The safety contract of `BorrowedReader`

`/repo/src/slice_reader.rs:116-182`, bullet by bullet.
-/

namespace Revision.Borrow

open Unsafe

variable {σ α : Type}

/-- A method call can take the reader from one state to the other. -/
inductive Call (R : Reader σ) : σ → σ → Prop where
  | peek (s n) : Call R s (R.peek s n).2
  | advance (s n) : Call R s (R.advance s n).2
  | read (s n) : Call R s (R.read s n).2
  | remaining (s) : Call R s (R.remaining s).2

/-- Some calls can. -/
inductive Reach (R : Reader σ) : σ → σ → Prop where
  | refl (s) : Reach R s s
  | step {s t u} : Reach R s t → Call R t u → Reach R s u

/-- `peek_bytes` or `remaining` returned the slice `p` and left the reader in state `s`. -/
inductive Returned (R : Reader σ) (p : Slice) (s : σ) : Prop where
  | peek {s₀ n} : R.peek s₀ n = (.ok p, s) → Returned R p s
  | remaining {s₀} : R.remaining s₀ = (p, s) → Returned R p s

/-- The four bullets. -/
structure Contract (R : Reader σ) : Prop where
  /-- 1: not a buffer that could be moved, reallocated or overwritten by a subsequent call. -/
  stable : ∀ {p s s'}, Returned R p s → Call R s s' → (R.mem s').load p = (R.mem s).load p
  /-- 2: `advance` must not invalidate, move or mutate the bytes returned, whenever that was. -/
  advance : ∀ {p s s' n}, Returned R p s → Reach R s s' →
    (R.mem (R.advance s' n).2).load p = (R.mem s').load p
  /-- 3: the bytes remain valid for the reader's lifetime. -/
  lifetime : ∀ {p s s'}, Returned R p s → Reach R s s' → (R.mem s').load p = (R.mem s).load p
  /-- 4: `remaining().len()` does not grow under a successful `advance`. -/
  monotone : ∀ {s s' n}, R.advance s n = (.ok (), s') → (R.remaining s').1.len ≤ (R.remaining s).1.len

/-- `peek_bytes(n)` returns `n` bytes.  The comment on the method says so; the contract does not. -/
def Exact (R : Reader σ) : Prop := ∀ {s n p s'}, R.peek s n = (.ok p, s') → p.len = n

/-- What a client does with the unread bytes `u` of a reader that has them all in memory: its outcome and the bytes it
leaves unread. -/
def Client.plainly : Client α → Bytes → Out α × Bytes
  | .ret a, u => (.ok a, u)
  | .fail e, u => (.err e, u)
  | .panic, u => (.panic, u)
  | .peek n k, u => (k (if n ≤ u.length then .ok (u.take n) else .err .io)).plainly u
  | .advance n k, u => if n ≤ u.length then (k (.ok ())).plainly (u.drop n) else (k (.err .io)).plainly u
  | .read n k, u => (k (.ok (u.take n))).plainly (u.drop n)
  | .remaining k, u => (k u).plainly u

end Revision.Borrow
