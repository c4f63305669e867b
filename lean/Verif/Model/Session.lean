import Verif.Model.Walk

/-!
# Sessions with walkers

Models the handles of `/repo/src/walk.rs:466-935` together with the reader they borrow, so that it can be
said where the reader stands, and what the walker counts, after a call that failed.  In
`Verif.Model.Walk` a failed call has no successor state.

Where a failed decode leaves the reader depends on the type and the bytes; here it is an arbitrary
function `lost`.  The checks made before reading, and the walkers that fail after reading a known number
of bytes, are modelled exactly.
-/

namespace Revision

/-- A read, and where the reader stands afterwards: as every method of `/repo/src/walk.rs:466-935` leaves it. -/
def Rd.at (lost : Bytes → Bytes) (m : Rd β) (s : Bytes) : Res β × Bytes :=
  match m s with
  | .ok (v, r) => (.ok v, r)
  | .err e => (.err e, lost s)
  | .panic => (.panic, lost s)

/-- `Ty.walk` with the place where the reader is left.  A bulk-encoded `Vec` is refused before anything
is read, `/repo/src/implementations/walk.rs:235-255`; `OptionWalker::new`, `/repo/src/walk.rs:287-297`, and
`ResultWalker::new`, `:367-377`, have read the tag when they refuse it. -/
def Ty.walkAt (cfg : Cfg) (lost : Bytes → Bytes) : Ty ι → Bytes → Res Walker × Bytes
  | .option _, s =>
    match (decInt cfg .u8).at lost s with
    | (.ok tag, r) => if tag = 0 ∨ tag = 1 then (.ok (.option ⟨tag⟩), r) else (.err .deserialize, r)
    | (.err e, r) => (.err e, r)
    | (.panic, r) => (.panic, r)
  | .result _ _, s =>
    match (readU32 cfg).at lost s with
    | (.ok tag, r) => if tag = 0 ∨ tag = 1 then (.ok (.result ⟨tag⟩), r) else (.err .deserialize, r)
    | (.err e, r) => (.err e, r)
    | (.panic, r) => (.panic, r)
  | .vec t, s =>
    if vecUsesBulkEncoding cfg t then (.err .deserialize, s)
    else ((Ty.vec t).walk cfg).at lost s
  | .wrap t, s => t.walkAt cfg lost s
  | t, s => (t.walk cfg).at lost s

/-- What a call gives the caller: what `/repo/src/walk.rs:486-935` return. -/
inductive Answer (β : Type) where
  /-- `Some(handle)` or `None`. -/
  | offered (some : Bool)
  | got (v : β)
  | both (k v : β)
  | count (n : Nat)
  | dropped
  | failed (e : Err)
  | panicked
  /-- There is no handle to call the method on: rejected by the borrow checker. -/
  | uncallable
  deriving DecidableEq

/-- Opening a nested walker: whether `walk_revisioned` succeeds, and then everything the caller does with
the walker before dropping it: as in `/repo/src/walk.rs:553-560`, `:853-861`. -/
abbrev Opening (β : Type) := Bytes → Res (Rd β) × Bytes

/-- Opening the walker of a supported type, and then `use`: `/repo/src/walk.rs:75-101`, `:553-560`. -/
def Ty.opening (cfg : Cfg) (lost : Bytes → Bytes) (t : Ty ι) (use : Walker → Rd β) : Opening β := fun s =>
  match t.walkAt cfg lost s with
  | (.ok w, r) => (.ok (use w), r)
  | (.err e, r) => (.err e, r)
  | (.panic, r) => (.panic, r)

/-! ### Sequences -/

/-- A `SeqWalker` with its reader, `/repo/src/walk.rs:466-470`. -/
structure SeqState where
  reader : Bytes
  remaining : Nat
  deriving DecidableEq

/-- A call on a sequence walker: `/repo/src/walk.rs:486-590`. -/
inductive SeqCall (β : Type) where
  /-- `remaining()`. -/
  | count
  /-- `next_item()`, and the item is dropped. -/
  | offer
  /-- `next_item()` and `decode`, `skip` or `with_bytes`, with the read they perform. -/
  | item (m : Rd β)
  /-- `next_item()` and `walk`. -/
  | walk (opn : Opening β)

namespace SeqState

/-- `self.walker.remaining -= 1`; an overflow panics in debug builds:
`/repo/src/walk.rs:532`, `:543`, `:558`, `:582`. -/
def took (σ : SeqState) (r : Bytes) (a : Answer β) : Answer β × SeqState :=
  if σ.remaining = 0 then (.panicked, ⟨r, 0⟩) else (a, ⟨r, σ.remaining - 1⟩)

/-- Models `SeqWalker::remaining`, `next_item`, `/repo/src/walk.rs:486-503`, and `SeqItem::decode`, `skip`,
`walk`, `with_bytes`, `:527-560`, `:577-584`. -/
def call (lost : Bytes → Bytes) : SeqCall β → SeqState → Answer β × SeqState
  | .count, σ => (.count σ.remaining, σ)
  | .offer, σ => (.offered (σ.remaining != 0), σ)
  | .item m, σ =>
    if σ.remaining = 0 then (.offered false, σ)
    else match m.at lost σ.reader with
      | (.ok v, r) => σ.took r (.got v)
      | (.err e, r) => (.failed e, { σ with reader := r })
      | (.panic, r) => (.panicked, { σ with reader := r })
  | .walk opn, σ =>
    if σ.remaining = 0 then (.offered false, σ)
    else match opn σ.reader with
      | (.ok use, r) =>
        match use.at lost r with
        | (.ok v, r) => σ.took r (.got v)
        | (.err e, r) => σ.took r (.failed e)
        | (.panic, r) => σ.took r .panicked
      | (.err e, r) => (.failed e, { σ with reader := r })
      | (.panic, r) => (.panicked, { σ with reader := r })

/-- A session: one call after another, whatever the answers: any use of `/repo/src/walk.rs:472-590`. -/
def run (lost : Bytes → Bytes) : List (SeqCall β) → SeqState → List (Answer β) × SeqState
  | [], σ => ([], σ)
  | c :: cs, σ =>
    let (a, σ) := σ.call lost c
    let (as, σ) := run lost cs σ
    (a :: as, σ)

end SeqState

/-! ### Maps -/

/-- A `MapWalker` with its reader, `/repo/src/walk.rs:593-597`, and the cursor of the `MapEntry` in use, if
any, `:786-789`. -/
structure MapState where
  reader : Bytes
  remaining : Nat
  entry : Option MapCursor
  deriving DecidableEq

/-- A call on a map walker or on its current entry: `/repo/src/walk.rs:622-935`. -/
inductive MapCall (β : Type) where
  /-- `remaining()`; an entry still in use is dropped. -/
  | count
  /-- `next_entry()`; an entry still in use is dropped. -/
  | next
  /-- The entry is dropped. -/
  | drop
  /-- `decode_key`, `skip_key` or `with_key_bytes`. -/
  | key (m : Rd β)
  /-- `decode_value`, `skip_value` or `with_value_bytes`. -/
  | value (m : Rd β)
  /-- `decode_pair` or `skip_pair`. -/
  | pair (km vm : Rd β)
  /-- `walk_value`. -/
  | walk (opn : Opening β)

namespace MapState

/-- `self.walker.remaining -= 1`, on behalf of a consumed entry: `/repo/src/walk.rs:834`, `:846`, `:859`, `:932`. -/
def took (σ : MapState) (r : Bytes) (a : Answer β) : Answer β × MapState :=
  if σ.remaining = 0 then (.panicked, ⟨r, 0, none⟩) else (a, ⟨r, σ.remaining - 1, none⟩)

/-- Models `MapEntry::decode_key`, `skip_key`, `/repo/src/walk.rs:804-824`, and `with_key_bytes`, `:902-913`:
they borrow the entry, which stays in use when they fail. -/
def key (lost : Bytes → Bytes) (m : Rd β) (σ : MapState) : Answer β × MapState :=
  match σ.entry with
  | none => (.uncallable, σ)
  | some .beforeValue => (.failed .deserialize, σ)
  | some .beforeKey =>
    match m.at lost σ.reader with
    | (.ok v, r) => (.got v, { σ with reader := r, entry := some .beforeValue })
    | (.err e, r) => (.failed e, { σ with reader := r })
    | (.panic, r) => (.panicked, { σ with reader := r })

/-- Models `MapEntry::decode_value`, `skip_value`, `/repo/src/walk.rs:828-846`, and `with_value_bytes`,
`:926-935`: they consume the entry, also when they fail. -/
def value (lost : Bytes → Bytes) (m : Rd β) (σ : MapState) : Answer β × MapState :=
  match σ.entry with
  | none => (.uncallable, σ)
  | some .beforeKey => (.failed .deserialize, { σ with entry := none })
  | some .beforeValue =>
    match m.at lost σ.reader with
    | (.ok v, r) => σ.took r (.got v)
    | (.err e, r) => (.failed e, { σ with reader := r, entry := none })
    | (.panic, r) => (.panicked, { σ with reader := r, entry := none })

/-- Models `MapEntry::walk_value`, `/repo/src/walk.rs:851-860`. -/
def walk (lost : Bytes → Bytes) (opn : Opening β) (σ : MapState) : Answer β × MapState :=
  match σ.entry with
  | none => (.uncallable, σ)
  | some .beforeKey => (.failed .deserialize, { σ with entry := none })
  | some .beforeValue =>
    match opn σ.reader with
    | (.ok use, r) =>
      match use.at lost r with
      | (.ok v, r) => σ.took r (.got v)
      | (.err e, r) => σ.took r (.failed e)
      | (.panic, r) => σ.took r .panicked
    | (.err e, r) => (.failed e, { σ with reader := r, entry := none })
    | (.panic, r) => (.panicked, { σ with reader := r, entry := none })

/-- Models `MapEntry::decode_pair` and `skip_pair`, `/repo/src/walk.rs:864-884`: they consume the entry. -/
def pair (lost : Bytes → Bytes) (km vm : Rd β) (σ : MapState) : Answer β × MapState :=
  match σ.key lost km with
  | (.got k, σ) =>
    match σ.value lost vm with
    | (.got v, σ) => (.both k v, σ)
    | (a, σ) => (a, σ)
  | (a, σ) => (a, { σ with entry := none })

/-- Models `MapWalker::remaining` and `next_entry`, `/repo/src/walk.rs:622-642`, and the methods of the
entry. -/
def call (lost : Bytes → Bytes) : MapCall β → MapState → Answer β × MapState
  | .count, σ => (.count σ.remaining, { σ with entry := none })
  | .next, σ =>
    if σ.remaining = 0 then (.offered false, { σ with entry := none })
    else (.offered true, { σ with entry := some .beforeKey })
  | .drop, σ => (.dropped, { σ with entry := none })
  | .key m, σ => σ.key lost m
  | .value m, σ => σ.value lost m
  | .pair km vm, σ => σ.pair lost km vm
  | .walk opn, σ => σ.walk lost opn

/-- A session: one call after another, whatever the answers: any use of `/repo/src/walk.rs:608-935`. -/
def run (lost : Bytes → Bytes) : List (MapCall β) → MapState → List (Answer β) × MapState
  | [], σ => ([], σ)
  | c :: cs, σ =>
    let (a, σ) := σ.call lost c
    let (as, σ) := run lost cs σ
    (a :: as, σ)

end MapState

end Revision
