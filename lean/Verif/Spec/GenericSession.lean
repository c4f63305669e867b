import Verif.Model.GenericSession
import Verif.Spec.Session

/-! # Vocabulary for sessions with the generic struct walker (C127) -/

namespace Revision

/-- A call on a generic struct walker by a caller who knows the fields: each field is taken whole, with its
own type, or its walk is refused before anything is read. -/
inductive GenericUse (β : Type) where
  | revision
  | position
  /-- The next field, with codec `c`, holds `a`; it is decoded, skipped or inspected. -/
  | field {α : Type} (c : Codec α) (a : α) (o : Observer c β)
  /-- The next field, with codec `c`, holds `a`; it is walked to its end. -/
  | walk {α : Type} (c : Codec α) (a : α) (w : FullWalk c β)
  /-- The next field is of a type that refuses to be walked; it is still the next field afterwards. -/
  | refused (e : Err)
  /-- The next bytes are those of `a` and no field; they are read from `reader()`. -/
  | raw {α : Type} (c : Codec α) (a : α) (o : Observer c β)

namespace GenericUse

/-- The call itself. -/
def toCall : GenericUse β → GenericCall β
  | .revision => .revision
  | .position => .position
  | .field _ _ o => .field o.read
  | .walk _ _ w => .walk w.opn
  | .refused e => .walk fun s => (.err e, s)
  | .raw _ _ o => .raw o.read

/-- What is serialised where the call is made. -/
def bytes : GenericUse β → Res Bytes
  | .field c a _ => c.enc a
  | .walk c a _ => c.enc a
  | .raw c a _ => c.enc a
  | _ => .ok []

/-- The value can be read back where the call is made. -/
def Valid : GenericUse β → Prop
  | .field c a _ => c.Faithful ∧ c.valid a
  | .walk c a _ => c.Faithful ∧ c.valid a
  | .raw c a _ => c.Faithful ∧ c.valid a
  | _ => True

/-- Whether the call starts a field. -/
def starts : GenericUse β → Nat
  | .field .. => 1
  | .walk .. => 1
  | _ => 0

/-- What the call should answer after `n` fields. -/
def answer (revision n : Nat) : GenericUse β → GenericAnswer β
  | .revision => .number revision
  | .position => .number n
  | .field _ a o => .got (o.view a)
  | .walk _ a w => .opened (.ok (w.view a))
  | .refused e => .failed e
  | .raw _ a o => .read (.ok (o.view a))

/-- What is serialised: the fields one after another. -/
def data : List (GenericUse β) → Res Bytes
  | [] => .ok []
  | u :: us => do
    let a ← u.bytes
    let b ← data us
    pure (a ++ b)

/-- What the session should answer after `n` fields. -/
def answers (revision : Nat) : List (GenericUse β) → Nat → List (GenericAnswer β)
  | [], _ => []
  | u :: us, n => u.answer revision n :: answers revision us (n + u.starts)

/-- How many fields the session starts. -/
def count (us : List (GenericUse β)) : Nat := (us.map starts).sum

end GenericUse

/-- The answer of a `decode`, `skip` or `walk` that succeeded. -/
def GenericAnswer.succeeded : GenericAnswer β → Bool
  | .got _ => true
  | .opened _ => true
  | _ => false

/-- How many of the answers are those of a `decode`, `skip` or `walk` that succeeded. -/
def succeededIn (as : List (GenericAnswer β)) : Nat := (as.filter GenericAnswer.succeeded).length

/-- The answer to a field read from the reader's bytes. -/
def GenericAnswer.Of (m : Rd β) (s : Bytes) (a : GenericAnswer β) : Prop :=
  match m s with
  | .ok (v, _) => a = .got v
  | .err e => a = .failed e
  | .panic => a = .panicked

/-- The result of a read of these bytes. -/
def Res.SameAs (q : Res β) (m : Rd β) (s : Bytes) : Prop :=
  match m s with
  | .ok (v, _) => q = .ok v
  | .err e => q = .err e
  | .panic => q = .panic

/-- The reads of the call do not panic. -/
def GenericCall.Quiet : GenericCall β → Prop
  | .revision | .position => True
  | .field m => m.NoPanic
  | .raw m => m.NoPanic
  | .walk opn => opn.Quiet

/-- The answer is a panic. -/
def GenericAnswer.IsPanic : GenericAnswer β → Prop
  | .panicked => True
  | .opened q => q = .panic
  | .read q => q = .panic
  | _ => False

end Revision
