import Verif.Model.Session
import Verif.Spec.Walk
import Verif.Spec.Laws

/-! # Vocabulary for sessions with walkers (C125)

What a caller should see: the collection as a list, of which the handled part is gone. -/

namespace Revision

/-- A nested walk used to its end: wherever the type decodes to `a`, the walker opens, and what the caller
does with it stops where decoding stops and reports `view a`. -/
structure FullWalk (c : Codec α) (β : Type) where
  opn : Opening β
  view : α → β
  follows : ∀ s a r, c.dec s = .ok (a, r) → ∃ use r', opn s = (.ok use, r') ∧ use r' = .ok (view a, r)

/-! ### Sequences -/

/-- A call by which an item is offered, or taken whole. -/
inductive SeqUse (c : Codec α) (β : Type) where
  | count
  | offer
  | item (o : Observer c β)
  | walk (w : FullWalk c β)

/-- The call itself. -/
def SeqUse.toCall {c : Codec α} : SeqUse c β → SeqCall β
  | .count => .count
  | .offer => .offer
  | .item o => .item o.read
  | .walk w => .walk w.opn

/-- What it should answer when `l` is left, and what is left then. -/
def SeqUse.step {c : Codec α} : SeqUse c β → List α → Answer β × List α
  | .count, l => (.count l.length, l)
  | .offer, l => (.offered (!l.isEmpty), l)
  | .item _, [] => (.offered false, [])
  | .item o, a :: l => (.got (o.view a), l)
  | .walk _, [] => (.offered false, [])
  | .walk w, a :: l => (.got (w.view a), l)

/-- What a session should answer. -/
def SeqUse.run {c : Codec α} : List (SeqUse c β) → List α → List (Answer β) × List α
  | [], l => ([], l)
  | u :: us, l =>
    let (a, l) := u.step l
    let (as, l) := SeqUse.run us l
    (a :: as, l)

/-! ### Maps -/

/-- A call on a map walker or its entry; keys and values are taken whole. -/
inductive MapUse (k : Codec κ) (v : Codec ν) (β : Type) where
  | count
  | next
  | drop
  | key (o : Observer k β)
  | value (o : Observer v β)
  | pair (ko : Observer k β) (vo : Observer v β)
  | walk (w : FullWalk v β)

/-- The call itself. -/
def MapUse.toCall {k : Codec κ} {v : Codec ν} : MapUse k v β → MapCall β
  | .count => .count
  | .next => .next
  | .drop => .drop
  | .key o => .key o.read
  | .value o => .value o.read
  | .pair ko vo => .pair ko.read vo.read
  | .walk w => .walk w.opn

/-- What the caller sees of a map: the entries not yet handled, and whether an entry is in use and which
half of it is next. -/
structure MapView (κ ν : Type) where
  rest : List (κ × ν)
  entry : Option MapCursor

/-- What a call should answer, and the view after it.  `none` is a call that loses an entry whose key has
been read and whose value has not: dropping it, taking the next one, or asking for the pair. -/
def MapUse.step {k : Codec κ} {v : Codec ν} (u : MapUse k v β) (m : MapView κ ν) :
    Option (Answer β × MapView κ ν) :=
  match u, m.entry, m.rest with
  | .count, some .beforeValue, _ => none
  | .next, some .beforeValue, _ => none
  | .drop, some .beforeValue, _ => none
  | .pair _ _, some .beforeValue, _ => none
  | .count, _, l => some (.count l.length, ⟨l, none⟩)
  | .next, _, [] => some (.offered false, ⟨[], none⟩)
  | .next, _, e :: l => some (.offered true, ⟨e :: l, some .beforeKey⟩)
  | .drop, _, l => some (.dropped, ⟨l, none⟩)
  | .key _, none, l => some (.uncallable, ⟨l, none⟩)
  | .key o, some .beforeKey, e :: l => some (.got (o.view e.1), ⟨e :: l, some .beforeValue⟩)
  | .key _, some .beforeValue, l => some (.failed .deserialize, ⟨l, some .beforeValue⟩)
  | .value _, none, l => some (.uncallable, ⟨l, none⟩)
  | .value _, some .beforeKey, l => some (.failed .deserialize, ⟨l, none⟩)
  | .value o, some .beforeValue, e :: l => some (.got (o.view e.2), ⟨l, none⟩)
  | .walk _, none, l => some (.uncallable, ⟨l, none⟩)
  | .walk _, some .beforeKey, l => some (.failed .deserialize, ⟨l, none⟩)
  | .walk w, some .beforeValue, e :: l => some (.got (w.view e.2), ⟨l, none⟩)
  | .pair _ _, none, l => some (.uncallable, ⟨l, none⟩)
  | .pair ko vo, some .beforeKey, e :: l => some (.both (ko.view e.1) (vo.view e.2), ⟨l, none⟩)
  | _, some _, [] => none

/-- What a session should answer; `none` if some call of it loses an entry halfway. -/
def MapUse.run {k : Codec κ} {v : Codec ν} : List (MapUse k v β) → MapView κ ν →
    Option (List (Answer β) × MapView κ ν)
  | [], m => some ([], m)
  | u :: us, m =>
    match u.step m with
    | none => none
    | some (a, m) =>
      match MapUse.run us m with
      | none => none
      | some (as, m) => some (a :: as, m)

/-! ### The half of the entry that is next, told from the answers -/

/-- An entry is in use, before its key, once it has been offered; it is before its value once its key has been
got; a call for the key that fails changes neither; any other call ends its use. -/
def halfNext : Option MapCursor → MapCall β × Answer β → Option MapCursor
  | _, (.next, .offered true) => some .beforeKey
  | some .beforeKey, (.key _, .got _) => some .beforeValue
  | h, (.key _, _) => h
  | _, _ => none

/-- The half that is next after a session. -/
def halfAfter (l : List (MapCall β × Answer β)) : Option MapCursor := l.foldl halfNext none

/-- The answer to a read of the reader's bytes. -/
def Answer.Of (m : Rd β) (s : Bytes) (a : Answer β) : Prop :=
  match m s with
  | .ok (v, _) => a = .got v
  | .err e => a = .failed e
  | .panic => a = .panicked

/-- Where a read leaves the reader: behind what it read, or wherever a read that fails stops. -/
def Rd.leaves (lost : Bytes → Bytes) (m : Rd β) (s : Bytes) : Bytes :=
  match m s with
  | .ok (_, r) => r
  | _ => lost s

/-- How many are left of `n` after a read that takes one of them if it succeeds. -/
def Rd.leftOf (n : Nat) (m : Rd β) (s : Bytes) : Nat :=
  match m s with
  | .ok _ => n - 1
  | _ => n

/-- A nested walk, with `n` left: if the walker opens, one of them is taken whatever becomes of the walk, which
answers and leaves the reader as what the caller does with the walker; if not, none is taken and the reader stays
where the opening left it. -/
def Opening.Walked (opn : Opening β) (lost : Bytes → Bytes) (n : Nat) (s : Bytes) (a : Answer β) (s' : Bytes)
    (n' : Nat) : Prop :=
  match opn s with
  | (.ok use, r) => a.Of use r ∧ s' = use.leaves lost r ∧ n' + 1 = n
  | (.err e, r) => a = .failed e ∧ s' = r ∧ n' = n
  | (.panic, r) => a = .panicked ∧ s' = r ∧ n' = n

/-- A pair, with `n` left: the value is read if the key was, and one is taken if both were. -/
def PairRead (km vm : Rd β) (lost : Bytes → Bytes) (n : Nat) (s : Bytes) (a : Answer β) (s' : Bytes)
    (n' : Nat) : Prop :=
  match km s with
  | .ok (k, r) =>
    match vm r with
    | .ok (v, r') => a = .both k v ∧ s' = r' ∧ n' + 1 = n
    | _ => a.Of vm r ∧ s' = lost r ∧ n' = n
  | _ => a.Of km s ∧ s' = lost s ∧ n' = n

/-! ### Calls that do not panic by themselves -/

/-- Opening the nested walker does not panic, nor does what the caller does with it. -/
def Opening.Quiet (opn : Opening β) : Prop :=
  ∀ s, (opn s).1 ≠ .panic ∧ ∀ use, (opn s).1 = .ok use → use.NoPanic

/-- The reads of the call do not panic. -/
def SeqCall.Quiet : SeqCall β → Prop
  | .count | .offer => True
  | .item m => m.NoPanic
  | .walk opn => opn.Quiet

/-- The reads of the call do not panic. -/
def MapCall.Quiet : MapCall β → Prop
  | .count | .next | .drop => True
  | .key m => m.NoPanic
  | .value m => m.NoPanic
  | .pair km vm => km.NoPanic ∧ vm.NoPanic
  | .walk opn => opn.Quiet

end Revision
