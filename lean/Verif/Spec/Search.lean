import Verif.Model.Indexed

/-! # What a lookup predicate must do -/

namespace Revision

/-- The predicate passed to a lookup is consistent with the order of the keys: it calls the keys
`Less` up to some point, at most one key `Equal`, and all later keys `Greater`. -/
def Guides (pred : Bytes → Ordering) (keys : List Bytes) : Prop :=
  keys.Pairwise fun a b => pred b ≠ .gt → pred a = .lt

/-- Keys in strictly ascending byte order. -/
def Ascending (keys : List Bytes) : Prop := keys.Pairwise fun a b => cmpBytes a b = .lt

/-- Comparing with a fixed probe key is consistent with ascending keys. -/
theorem Ascending.guides {keys : List Bytes} (h : Ascending keys)
    (trans : ∀ a b c, cmpBytes a b = .lt → cmpBytes b c ≠ .gt → cmpBytes a c = .lt) (k : Bytes) :
    Guides (fun x => cmpBytes x k) keys :=
  List.Pairwise.imp (fun hab hb => trans _ _ _ hab hb) h

end Revision
