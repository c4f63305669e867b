import Verif.Model.Session

/-!
# Sessions with the generic struct walker

Models the methods that borrow a `StructWalker`, `/repo/src/walk.rs:954-1042`, with the reader it holds and
its `u32` counter, so that calls can follow a call that failed.  As in `Verif.Model.Session`, where a failed
read leaves the source is an arbitrary function `lost`.
-/

namespace Revision

/-- A `StructWalker` with its reader, `/repo/src/walk.rs:954-958`. -/
structure GenericState where
  reader : Bytes
  revision : Nat
  position : Nat
  deriving DecidableEq

/-- A call on a generic struct walker: `/repo/src/walk.rs:974-1035`. -/
inductive GenericCall (β : Type) where
  /-- `revision()`. -/
  | revision
  /-- `position()`. -/
  | position
  /-- `decode::<T>()` or `skip::<T>()`, with the read they perform. -/
  | field (m : Rd β)
  /-- `walk::<T>()`, and what is done with the nested walker before it is dropped. -/
  | walk (opn : Opening β)
  /-- A read from `reader()`. -/
  | raw (m : Rd β)

/-- What a call gives the caller: `/repo/src/walk.rs:974-1035`. -/
inductive GenericAnswer (β : Type) where
  | number (n : Nat)
  | got (v : β)
  /-- The nested walker was opened; what came of its use. -/
  | opened (q : Res β)
  /-- A read from `reader()`. -/
  | read (q : Res β)
  | failed (e : Err)
  | panicked

namespace GenericState

/-- Models `StructWalker::new`, `/repo/src/walk.rs:964-970`. -/
def new (s : Bytes) (revision : Nat) : GenericState := ⟨s, revision, 0⟩

/-- `self.position += 1` on a `u32`; an overflow panics in debug builds: `/repo/src/walk.rs:996`, `:1004`, `:1017`. -/
def started (σ : GenericState) (r : Bytes) (a : GenericAnswer β) : GenericAnswer β × GenericState :=
  if σ.position + 1 < 2 ^ 32 then (a, { σ with reader := r, position := σ.position + 1 })
  else (.panicked, { σ with reader := r })

/-- Models `StructWalker::revision`, `position`, `decode`, `skip`, `walk` and `reader`,
`/repo/src/walk.rs:974-1019`, `:1030-1035`.  When the counter overflows in `walk`, the nested walker is lost. -/
def call (lost : Bytes → Bytes) (c : GenericCall β) (σ : GenericState) : GenericAnswer β × GenericState :=
  match c with
  | .revision => (.number σ.revision, σ)
  | .position => (.number σ.position, σ)
  | .field m =>
    match m.at lost σ.reader with
    | (.ok v, r) => σ.started r (.got v)
    | (.err e, r) => (.failed e, { σ with reader := r })
    | (.panic, r) => (.panicked, { σ with reader := r })
  | .walk opn =>
    match opn σ.reader with
    | (.ok use, r) =>
      match σ.started r (.got ()) with
      | (.got (), σ) =>
        let (q, r) := use.at lost r
        (.opened q, { σ with reader := r })
      | (_, σ) => (.panicked, σ)
    | (.err e, r) => (.failed e, { σ with reader := r })
    | (.panic, r) => (.panicked, { σ with reader := r })
  | .raw m =>
    let (q, r) := m.at lost σ.reader
    (.read q, { σ with reader := r })

/-- A session: one call after another, whatever the answers: any use of `/repo/src/walk.rs:960-1035`. -/
def run (lost : Bytes → Bytes) : List (GenericCall β) → GenericState → List (GenericAnswer β) × GenericState
  | [], σ => ([], σ)
  | c :: cs, σ =>
    let (a, σ) := σ.call lost c
    let (as, σ) := run lost cs σ
    (a :: as, σ)

end GenericState

end Revision
