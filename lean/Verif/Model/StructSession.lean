import Verif.Model.Session
import Verif.Model.DeriveWalk

/-!
# Sessions with the walkers of derived structs

Models the methods that borrow a generated struct walker, `/repo/revision-derive/src/expand/walk.rs:1015-1128`,
together with the reader it holds, so that calls can follow a call that failed.  As in `Verif.Model.Session`,
where a failed read of the source leaves it is an arbitrary function `lost`.  The methods that consume the
walker (`into_…`) end a session and are not part of it.
-/

namespace Revision

variable {V : Type}

/-- A generated struct walker and the rest of its source: `/repo/revision-derive/src/expand/walk.rs:348-392`. -/
structure StructState where
  repr : StructRepr
  reader : Bytes
  deriving DecidableEq

/-- A call on a struct walker; fields are numbered among those of the current revision:
`/repo/revision-derive/src/expand/walk.rs:1015-1128`. -/
inductive StructCall (β : Type) where
  /-- `decode_<field>`. -/
  | decode (i : Nat)
  /-- `skip_<field>`. -/
  | skip (i : Nat)
  /-- `walk_<field>` of a field with an `indexed_*` attribute. -/
  | view (i : Nat)
  /-- `walk_<field>` of another field, and what is done with the nested walker before it is dropped. -/
  | walk (i : Nat) (opn : Opening β)

/-- What a call gives the caller: `/repo/revision-derive/src/expand/walk.rs:1015-1128`. -/
inductive StructAnswer (V β : Type) where
  | got (v : V)
  | skipped
  | viewed (b : Bytes)
  | walked (x : β)
  | failed (e : Err)
  | panicked
  /-- There is no such method. -/
  | uncallable
  deriving DecidableEq

namespace StructState

/-- What is answered, in which state, when a step comes out as `q`:
`/repo/revision-derive/src/expand/walk.rs:1015-1128`. -/
def settle (q : Res α) (ok : α → StructAnswer V β × StructState) (otherwise : StructState) :
    StructAnswer V β × StructState :=
  match q with
  | .ok a => ok a
  | .err e => (.failed e, otherwise)
  | .panic => (.panicked, otherwise)

/-- Models `decode_<field>`, `/repo/revision-derive/src/expand/walk.rs:1023-1073` with `:529-547`: the cursor
of a converted walker moves only when decoding succeeds, and a default is made without reading. -/
def decode (lost : Bytes → Bytes) (i : Nat) (f : FieldDecl V) (σ : StructState) : StructAnswer V β × StructState :=
  match σ.repr with
  | .wire rev =>
    if StructRepr.present f rev then
      let (q, r) := f.optimisedC.dec.at lost σ.reader
      settle q (fun v => (.got v, ⟨.wire rev, r⟩)) ⟨.wire rev, r⟩
    else settle (f.dflt rev) (fun v => (.got v, σ)) σ
  | .indexed bytes fc =>
    settle (do let s ← StructRepr.fieldSlice bytes fc i; f.plain.dec.within s) (fun v => (.got v, σ)) σ
  | .converted bytes cursor =>
    settle (StructRepr.atCursor f.plain.dec bytes cursor)
      (fun (v, cursor) => (.got v, ⟨.converted bytes cursor, σ.reader⟩)) σ

/-- Models `skip_<field>`, `/repo/revision-derive/src/expand/walk.rs:1077-1100` with `:549-557`. -/
def skip (lost : Bytes → Bytes) (f : FieldDecl V) (σ : StructState) : StructAnswer V β × StructState :=
  match σ.repr with
  | .wire rev =>
    if StructRepr.present f rev then
      let (q, r) := f.optimisedC.skip.at lost σ.reader
      settle q (fun _ => (.skipped, ⟨.wire rev, r⟩)) ⟨.wire rev, r⟩
    else (.skipped, σ)
  | .indexed .. => (.skipped, σ)
  | .converted bytes cursor =>
    settle (StructRepr.atCursor f.plain.skip bytes cursor)
      (fun (_, cursor) => (.skipped, ⟨.converted bytes cursor, σ.reader⟩)) σ

/-- Models `walk_<field>` of an `indexed_*` field, `/repo/revision-derive/src/expand/walk.rs:718-853` with
`:633-662` and `:668-712`.  On a converted walker it calls `decode_<field>`, which moves the cursor, and
re-encodes. -/
def view (lost : Bytes → Bytes) (i : Nat) (f : FieldDecl V) (σ : StructState) : StructAnswer V β × StructState :=
  match σ.repr with
  | .indexed bytes fc => settle (StructRepr.fieldSlice bytes fc i) (fun b => (.viewed b, σ)) σ
  | .wire rev =>
    let (q, r) := (StructRepr.consumed f.indexed.skip).at lost σ.reader
    settle q (fun b => (.viewed b, ⟨.wire rev, r⟩)) ⟨.wire rev, r⟩
  | .converted bytes cursor =>
    settle (StructRepr.atCursor f.plain.dec bytes cursor)
      (fun (v, cursor) => settle (f.indexed.enc v) (fun b => (.viewed b, ⟨.converted bytes cursor, σ.reader⟩))
        ⟨.converted bytes cursor, σ.reader⟩) σ

/-- Models `walk_<field>` of any other field, `/repo/revision-derive/src/expand/walk.rs:854-871` with
`:583-604`. -/
def walk (lost : Bytes → Bytes) (opn : Opening β) (f : FieldDecl V) (σ : StructState) :
    StructAnswer V β × StructState :=
  match σ.repr with
  | .wire rev =>
    if StructRepr.present f rev then
      let (q, r) := opn σ.reader
      settle q (fun use =>
        let (q, r) := use.at lost r
        settle q (fun x => (.walked x, ⟨.wire rev, r⟩)) ⟨.wire rev, r⟩) ⟨.wire rev, r⟩
    else (.failed .conversion, σ)
  | .indexed .. => (.failed .conversion, σ)
  | .converted .. => (.failed .conversion, σ)

/-- A call on the walker of a struct whose current fields are `fs`; methods exist for those only, and
`walk_<field>` is of one kind or the other, `/repo/revision-derive/src/expand/walk.rs:462-472`, `:718-855`. -/
def call (lost : Bytes → Bytes) (fs : List (FieldDecl V)) (c : StructCall β) (σ : StructState) :
    StructAnswer V β × StructState :=
  match c with
  | .decode i => match fs[i]? with
    | some f => σ.decode lost i f
    | none => (.uncallable, σ)
  | .skip i => match fs[i]? with
    | some f => σ.skip lost f
    | none => (.uncallable, σ)
  | .view i => match fs[i]? with
    | some f => if f.isIndexed then σ.view lost i f else (.uncallable, σ)
    | none => (.uncallable, σ)
  | .walk i opn => match fs[i]? with
    | some f => if f.isIndexed then (.uncallable, σ) else σ.walk lost opn f
    | none => (.uncallable, σ)

/-- A session: one call after another, whatever the answers:
any use of `/repo/revision-derive/src/expand/walk.rs:1015-1128`. -/
def run (lost : Bytes → Bytes) (fs : List (FieldDecl V)) : List (StructCall β) → StructState →
    List (StructAnswer V β) × StructState
  | [], σ => ([], σ)
  | c :: cs, σ =>
    let (a, σ) := σ.call lost fs c
    let (as, σ) := run lost fs cs σ
    (a :: as, σ)

end StructState

end Revision
