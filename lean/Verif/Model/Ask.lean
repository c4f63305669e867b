import Verif.Model.Indexed
import Verif.Model.Walk

/-!
# Lookups with a closure that may keep state

The lookups of `/repo/src/optimised/indexed/map_walk.rs` and `/repo/src/walk.rs` take a predicate
`F: FnMut`, so it may remember what it was asked and may answer differently from one call to the
next.  Here each lookup is the tree of the questions it puts to the closure, with one branch per
answer; `Ask.run` drives it with a closure.  The definitions of `Verif.Model.Indexed` and
`Verif.Model.Walk` are the case of a closure without state (`C118_stateless`).
-/

namespace Revision

/-- Code that calls a closure `FnMut(&κ) -> Ordering` and finishes with an `α`.  Models the use of
`predicate` in `/repo/src/optimised/indexed/map_walk.rs:292-419` and
`/repo/src/walk.rs:683-773`.  Simplification: a panic in the closure is not modelled, it unwinds
through these functions, which own nothing that it would leave behind. -/
inductive Ask (κ α : Type) where
  | done (a : α)
  | ask (key : κ) (next : Ordering → Ask κ α)

namespace Ask

/-- A call of the lookup with the closure `p` in state `s`; no line of its own in `/repo`, it is
the meaning of `predicate(key)` in `/repo/src/optimised/indexed/map_walk.rs:401` and
`/repo/src/walk.rs:691`. -/
def run (p : σ → κ → Ordering × σ) : Ask κ α → σ → α × σ
  | .done a, s => (a, s)
  | .ask k next, s => (next (p s k).1).run p (p s k).2

/-- What is done with the result afterwards: `?`, `map` and `match` on the result of
`binary_search_entry`, `/repo/src/optimised/indexed/map_walk.rs:299`, `:360-369`. -/
def andThen (t : Ask κ α) (f : α → Ask κ β) : Ask κ β :=
  match t with
  | .done a => f a
  | .ask k next => .ask k fun o => (next o).andThen f

end Ask

namespace IndexedMapWalker

/-- Models the loop of `binary_search_entry`, `/repo/src/optimised/indexed/map_walk.rs:384-418`,
with the predicate called as a closure. -/
def searchAsk (p : MapPrologue) (n lo hi : Nat) : Ask Bytes (Res (Option (Bytes × Nat))) :=
  if _h : lo < hi then
    let mid := lo + (hi - lo) / 2
    match p.entryRanges n mid with
    | .ok (some ((ks, ke), (vs, ve))) =>
      match getR p.keys ks ke with
      | none => .done (.err (.offsetOutOfRange (ke % 2 ^ 32) (p.keys.length % 2 ^ 32)))
      | some key => .ask key fun
        | .eq =>
          match getR p.vals vs ve with
          | none => .done (.err (.offsetOutOfRange (ve % 2 ^ 32) (p.vals.length % 2 ^ 32)))
          | some value => .done (.ok (some (value, mid % 2 ^ 32)))
        | .lt => searchAsk p n (mid + 1) hi
        | .gt => searchAsk p n lo mid
    | .ok none => .done .panic
    | .err e => .done (.err e)
    | .panic => .done .panic
  else .done (.ok none)
termination_by hi - lo
decreasing_by all_goals omega

/-- Models `IndexedMapWalker::find_value_bytes`,
`/repo/src/optimised/indexed/map_walk.rs:292-300`, with the predicate called as a closure. -/
def findValueBytesAsk (w : IndexedMapWalker) : Ask Bytes (Res (Option Bytes)) :=
  match w.prologue with
  | none => .done (.err .deserialize)
  | some p => (searchAsk p w.len 0 w.len).andThen fun r => .done (do
      let r ← r
      pure (r.map Prod.fst))

/-- Models the hint probe of `find_value_bytes_with_hint`,
`/repo/src/optimised/indexed/map_walk.rs:348-358`, with the predicate called as a closure. -/
def probeAsk (p : MapPrologue) (n : Nat) (hint : Option Nat) :
    Ask Bytes (Res (Option (Bytes × Nat))) :=
  match hint with
  | none => .done (.ok none)
  | some h =>
    match p.entryRanges n h with
    | .ok none => .done (.ok none)
    | .ok (some ((ks, ke), (vs, ve))) =>
      match getR p.keys ks ke with
      | none => .done (.ok none)
      | some key => .ask key fun o =>
        if o = .eq then
          match getR p.vals vs ve with
          | none => .done (.ok none)
          | some value => .done (.ok (some (value, h)))
        else .done (.ok none)
    | .err e => .done (.err e)
    | .panic => .done .panic

/-- Models `IndexedMapWalker::find_value_bytes_with_hint`,
`/repo/src/optimised/indexed/map_walk.rs:328-370`, with the predicate called as a closure. -/
def findWithHintAsk (w : IndexedMapWalker) (hint : Option Nat) : Ask Bytes (Res HintedLookup) :=
  match w.prologue with
  | none => .done (.err .deserialize)
  | some p => (probeAsk p w.len hint).andThen fun
    | .err e => .done (.err e)
    | .panic => .done .panic
    | .ok (some (value, h)) => .done (.ok ⟨some value, some h⟩)
    | .ok none => (searchAsk p w.len 0 w.len).andThen fun r => .done (do
        match ← r with
        | some (value, index) => pure ⟨some value, some index⟩
        | none => pure ⟨none, hint⟩)

end IndexedMapWalker

namespace MapWalker

/-- The loop of `MapWalker::find`, `/repo/src/walk.rs:683-712`, and of `MapWalker::find_bytes`,
`:741-773`, with the predicate called as a closure: `n` entries remain and the reader is at `s`.
The result is as in `MapWalker.findLoop`. -/
def findAsk (key : Rd κ) (kskip vskip : Rd Unit) : Nat → Bytes → Ask κ (Res (Bool × Bytes))
  | 0, s => .done (.ok (false, s))
  | n + 1, s =>
    match key s with
    | .err e => .done (.err e)
    | .panic => .done .panic
    | .ok (k, s) => .ask k fun
      | .lt =>
        match vskip s with
        | .err e => .done (.err e)
        | .panic => .done .panic
        | .ok ((), s) => findAsk key kskip vskip n s
      | .eq => .done (.ok (true, s))
      | .gt => .done ((do
          vskip
          Rd.repeatN n (do kskip; vskip)
          pure false : Rd Bool) s)

/-- Models `MapWalker::new`, `/repo/src/walk.rs:611-618`, and `MapWalker::find`,
`/repo/src/walk.rs:683-712`, on the input `s`, with the predicate called as a closure. -/
def openFindAsk (cfg : Cfg) (k : Codec κ) (v : Codec β) (s : Bytes) :
    Ask κ (Res (Bool × Bytes)) :=
  match MapWalker.new cfg s with
  | .err e => .done (.err e)
  | .panic => .done .panic
  | .ok (w, s) => findAsk k.dec k.skip v.skip w.remaining s

/-- Models `MapWalker::new`, `/repo/src/walk.rs:611-618`, and `MapWalker::find_bytes`,
`/repo/src/walk.rs:741-773`, on the input `s`, with the predicate called as a closure. -/
def openFindBytesAsk (cfg : Cfg) (k : Codec κ) (v : Codec β) (s : Bytes) :
    Ask Bytes (Res (Bool × Bytes)) :=
  match MapWalker.new cfg s with
  | .err e => .done (.err e)
  | .panic => .done .panic
  | .ok (w, s) => findAsk (withLengthPrefixedBytes cfg id) k.skip v.skip w.remaining s

end MapWalker

end Revision
