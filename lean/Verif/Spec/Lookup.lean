import Verif.Model.DeriveWalk
import Verif.Model.DeriveTy
import Verif.Spec.DeriveWalk

/-!
# Looking things up in serialised collections

User programs against the views `walk_<field>` gives for `indexed_*` fields.  They ask the walker of
the view, and where it has no offset table go through `legacy_body()` or `body()` entry by entry, as
the documentation of these walkers says.
-/

namespace Revision

/-- Go through `n` entries: decode each key, compare it with the wanted one by its serialised form,
decode or skip the value. -/
def scanMap (k : Codec κ) (v : Codec ν) (kb : Bytes) : Nat → Rd (Option ν)
  | 0 => pure none
  | n + 1 => do
    let a ← k.dec
    if k.enc a = .ok kb then do
      let b ← v.dec
      pure (some b)
    else do
      v.skip
      scanMap k v kb n

/-- Look up a key in the view of an `indexed_map` field. -/
def mapGet (k : Codec κ) (v : Codec ν) (key : κ) (view : Bytes) : Res (Option ν) := do
  let kb ← k.enc key
  let w ← IndexedMapWalker.fromPayload view
  match w.legacyBody with
  | some body => (scanMap k v kb w.len).within body
  | none => do
    match ← w.findValueBytes (fun x => cmpBytes x kb) with
    | some vb => do
      let b ← v.dec.within vb
      pure (some b)
    | none => pure none

/-- Skip `i` elements and decode the next. -/
def scanSeq (c : Codec α) : Nat → Rd α
  | 0 => c.dec
  | i + 1 => do
    c.skip
    scanSeq c i

/-- Get element `i` from the view of an `indexed_seq` field. -/
def seqGet (c : Codec α) (i : Nat) (view : Bytes) : Res (Option α) := do
  let w ← IndexedSeqWalker.fromPayload view
  if i < w.len then do
    let a ← (if w.isIndexed then do
        let b ← w.elementBytes i
        c.dec.within b
      else (scanSeq c i).within w.body)
    pure (some a)
  else pure none

/-- Binary search through `element_bytes`. -/
def searchSet (w : IndexedSeqWalker) (eb : Bytes) (lo hi : Nat) : Res Bool :=
  if _h : lo < hi then
    match w.elementBytes (lo + (hi - lo) / 2) with
    | .ok x =>
      match cmpBytes x eb with
      | .eq => .ok true
      | .lt => searchSet w eb (lo + (hi - lo) / 2 + 1) hi
      | .gt => searchSet w eb lo (lo + (hi - lo) / 2)
    | .err e => .err e
    | .panic => .panic
  else .ok false
termination_by hi - lo
decreasing_by all_goals omega

/-- Go through `n` elements, comparing each by its serialised form. -/
def scanSet (c : Codec α) (eb : Bytes) : Nat → Rd Bool
  | 0 => pure false
  | n + 1 => do
    let a ← c.dec
    if c.enc a = .ok eb then pure true else scanSet c eb n

/-- Test membership in the view of an `indexed_set` field. -/
def setHas (c : Codec α) (a : α) (view : Bytes) : Res Bool := do
  let eb ← c.enc a
  let w ← IndexedSeqWalker.fromPayload view
  if w.isIndexed then searchSet w eb 0 w.len
  else (scanSet c eb w.len).within w.body

/-! ### Questions to a field -/

variable {ι : Type}

/-- A question to a collection of a type that has an indexed form. -/
inductive Query (E : Env ι) : Ty ι → Type
  | btreeMap (k v : Ty ι) (key : k.denote E.X) : Query E (.btreeMap k v)
  | hashMap (k v : Ty ι) (key : k.denote E.X) : Query E (.hashMap k v)
  | vec (t : Ty ι) (i : Nat) : Query E (.vec t)
  | vector (t : Ty ι) (i : Nat) : Query E (.vector t)
  | btreeSet (t : Ty ι) (a : t.denote E.X) : Query E (.btreeSet t)
  | hashSet (t : Ty ι) (a : t.denote E.X) : Query E (.hashSet t)

namespace Query

variable {E : Env ι}

/-- What an answer looks like. -/
def Answer : {t : Ty ι} → Query E t → Type
  | _, .btreeMap _ v _ => Option (v.denote E.X)
  | _, .hashMap _ v _ => Option (v.denote E.X)
  | _, .vec t _ => Option (t.denote E.X)
  | _, .vector t _ => Option (t.denote E.X)
  | _, .btreeSet _ _ => Bool
  | _, .hashSet _ _ => Bool

/-- Ask the view. -/
def ask (cfg : Cfg) : {t : Ty ι} → (q : Query E t) → Bytes → Res q.Answer
  | _, .btreeMap k v key => mapGet (k.codec cfg E) (v.codec cfg E) key
  | _, .hashMap k v key => mapGet (k.codec cfg E) (v.codec cfg E) key
  | _, .vec t i => seqGet (t.codec cfg E) i
  | _, .vector t i => seqGet (t.codec cfg E) i
  | _, .btreeSet t a => setHas (t.codec cfg E) a
  | _, .hashSet t a => setHas (t.codec cfg E) a

/-- What the collection itself says. -/
def Right : {t : Ty ι} → (q : Query E t) → t.denote E.X → q.Answer → Prop
  | _, .btreeMap _ _ key, m, ans => ∀ val, ans = some val ↔ (key, val) ∈ m
  | _, .hashMap _ _ key, m, ans => ∀ val, ans = some val ↔ (key, val) ∈ m
  | _, .vec _ i, l, ans => ans = l[i]?
  | _, .vector _ i, l, ans => ans = l[i]?
  | _, .btreeSet _ a, s, ans => ans = true ↔ a ∈ s
  | _, .hashSet _ a, s, ans => ans = true ↔ a ∈ s

/-- The key or element asked for can itself be written, and no element of a sequence and no value of a map
with an offset table is written as no bytes at all. -/
def Fair (cfg : Cfg) : {t : Ty ι} → Query E t → t.denote E.X → Prop
  | _, .btreeMap k v key, m | _, .hashMap k v key, m =>
    ((k.codec cfg E).valid key ∧ ∃ b, (k.codec cfg E).enc key = .ok b) ∧
      (8 ≤ m.length → ∀ e ∈ m, (v.codec cfg E).enc e.2 ≠ .ok [])
  | _, .vec t _, l | _, .vector t _, l => 8 ≤ l.length → ∀ a ∈ l, (t.codec cfg E).enc a ≠ .ok []
  | _, .btreeSet t a, _ | _, .hashSet t a, _ => (t.codec cfg E).valid a ∧ ∃ b, (t.codec cfg E).enc a = .ok b

end Query

end Revision
