import Verif.Model.StructSession
import Verif.Spec.DeriveWalk
import Verif.Spec.Session

/-! # Vocabulary for sessions with struct walkers (C126)

What a caller should see: the fields of the current revision with their values, of which those that are in
the data are to be taken in order. -/

namespace Revision

variable {V : Type}

/-- A call on a struct walker, whose nested walks are used to their end or refused outright. -/
inductive StructUse (V β : Type) where
  | decode (i : Nat)
  | skip (i : Nat)
  | view (i : Nat)
  /-- `walk_<field>`; the caller learns `see v` of the value `v` of the field. -/
  | walk (i : Nat) (opn : Opening β) (see : V → β)
  /-- `walk_<field>` of a field whose type refuses to be walked before reading anything. -/
  | refused (i : Nat) (e : Err)

/-- The call itself. -/
def StructUse.toCall : StructUse V β → StructCall β
  | .decode i => .decode i
  | .skip i => .skip i
  | .view i => .view i
  | .walk i opn _ => .walk i opn
  | .refused i e => .walk i fun s => (.err e, s)

/-- A nested walk is used to its end: wherever the field decodes to `v`, its walker opens, and what the
caller does with it stops where decoding stops and reports `see v`. -/
def StructUse.Follows (fs : List (FieldDecl V)) : StructUse V β → Prop
  | .walk i opn see => ∀ f, fs[i]? = some f → ∀ s v r, f.plain.dec s = .ok (v, r) →
      ∃ use r', opn s = (.ok use, r') ∧ use r' = .ok (see v, r)
  | _ => True

/-- The numbers of the fields, among those of the current revision, that data of revision `k` has. -/
def storedFields (fs : List (FieldDecl V)) (k : Nat) : List Nat :=
  (List.range fs.length).filter fun i => match fs[i]? with
    | some f => f.existsAt k
    | none => false

/-- Take field `i`, which must be the next one. -/
def takeField (a : StructAnswer V β) (i : Nat) : List Nat → Option (StructAnswer V β × List Nat)
  | j :: left => if i = j then some (a, left) else none
  | [] => none

/-- What a call on a walker that goes through data of revision `k` should answer, for the value `vs` of the
current revision, when the fields `left` of the data are still ahead; and what is ahead then.  `none` is a
call for a field of the data that is not the next one, and the view of a field that the data does not have.
Fields that the data does not have can be asked for at any time. -/
def StructUse.step (fs : List (FieldDecl V)) (k : Nat) (vs : List V) (u : StructUse V β) (left : List Nat) :
    Option (StructAnswer V β × List Nat) :=
  match u with
  | .decode i => match fs[i]?, vs[i]? with
    | some f, some v => if f.existsAt k then takeField (.got v) i left else some (.got v, left)
    | _, _ => some (.uncallable, left)
  | .skip i => match fs[i]? with
    | some f => if f.existsAt k then takeField .skipped i left else some (.skipped, left)
    | none => some (.uncallable, left)
  | .view i => match fs[i]?, vs[i]? with
    | some f, some v =>
      if f.isIndexed then
        match f.indexed.enc v with
        | .ok b => if f.existsAt k then takeField (.viewed b) i left else none
        | _ => none
      else some (.uncallable, left)
    | _, _ => some (.uncallable, left)
  | .walk i _ see => match fs[i]?, vs[i]? with
    | some f, some v =>
      if f.isIndexed then some (.uncallable, left)
      else if f.existsAt k then takeField (.walked (see v)) i left
      else some (.failed .conversion, left)
    | _, _ => some (.uncallable, left)
  | .refused i e => match fs[i]? with
    | some f =>
      if f.isIndexed then some (.uncallable, left)
      else if f.existsAt k then some (.failed e, left)
      else some (.failed .conversion, left)
    | none => some (.uncallable, left)

/-- What a session should answer, and the fields ahead after it; `none` if some call of it is out of
order. -/
def StructUse.run (fs : List (FieldDecl V)) (k : Nat) (vs : List V) : List (StructUse V β) → List Nat →
    Option (List (StructAnswer V β) × List Nat)
  | [], left => some ([], left)
  | u :: us, left =>
    match u.step fs k vs left with
    | none => none
    | some (a, left) =>
      match StructUse.run fs k vs us left with
      | none => none
      | some (as, left) => some (a :: as, left)

/-- The call is no nested walk. -/
def StructUse.NoWalk : StructUse V β → Prop
  | .walk .. => False
  | .refused .. => False
  | _ => True

/-- What a call on the walker of an indexed struct should answer, whatever was called before. -/
def StructCall.answer (fs : List (FieldDecl V)) (vs : List V) : StructCall β → Option (StructAnswer V β)
  | .decode i => match fs[i]?, vs[i]? with
    | some f, some v => if f.isIndexed then none else some (.got v)
    | _, _ => some .uncallable
  | .skip i => match fs[i]? with
    | some _ => some .skipped
    | none => some .uncallable
  | .view i => match fs[i]?, vs[i]? with
    | some f, some v =>
      if f.isIndexed then
        match f.indexed.enc v with
        | .ok b => some (.viewed b)
        | _ => none
      else some .uncallable
    | _, _ => some .uncallable
  | .walk i _ => match fs[i]? with
    | some f => if f.isIndexed then some .uncallable else some (.failed .conversion)
    | none => some .uncallable

end Revision
