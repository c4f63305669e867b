import Verif.Model.Ask
import Verif.Spec.Search

/-!
# Conversations with a closure
-/

namespace Revision

/-- The calls the lookup `t` makes of the closure `p`, found in state `s`: each key it was given
and what it answered. -/
def Ask.calls (p : σ → κ → Ordering × σ) : Ask κ α → σ → List (κ × Ordering)
  | .done _, _ => []
  | .ask k next, s => (k, (p s k).1) :: (next (p s k).1).calls p (p s k).2

/-- The closure `p`, writing down its calls. -/
def recording (p : σ → κ → Ordering × σ) :
    σ × List (κ × Ordering) → κ → Ordering × (σ × List (κ × Ordering)) :=
  fun s k => ((p s.1 k).1, ((p s.1 k).2, s.2 ++ [(k, (p s.1 k).1)]))

/-- A scan as the documentation of `find_value_bytes_with_hint` describes it
(`/repo/src/optimised/indexed/map_walk.rs:302-327`): the same closure over one map after another,
each lookup with the hint the one before it returned.  For every row the value found and how often
the closure was called. -/
def scan (p : σ → Bytes → Ordering × σ) :
    List IndexedMapWalker → Option Nat → σ → List (Res (Option Bytes) × Nat)
  | [], _, _ => []
  | w :: rows, hint, st =>
    let calls := ((w.findWithHintAsk hint).calls p st).length
    match (w.findWithHintAsk hint).run p st with
    | (.ok r, st) => (.ok r.value, calls) :: scan p rows r.hint st
    | (.err e, st) => (.err e, calls) :: scan p rows hint st
    | (.panic, st) => (.panic, calls) :: scan p rows hint st

/-- `w` was opened on a payload that was accepted, and `es` are its entries. -/
def IndexedMapWalker.Holds (w : IndexedMapWalker) (es : List (Bytes × Bytes)) : Prop :=
  ∃ q : Bytes, q.length < 2 ^ 63 ∧ IndexedMapWalker.fromPayload q = .ok w ∧
    w.entries = some (.ok es)

end Revision
