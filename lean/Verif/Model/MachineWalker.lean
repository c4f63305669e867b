import Verif.Model.Machine
import Verif.Model.Walk

/-!
# Walkers on machines of other widths

The walkers of `/repo/src/walk.rs` that read a length, on a machine whose `usize` has any width.  Their other
methods (`Verif.Model.Walk`) do not depend on it.
-/

namespace Revision.Machine

/-- Models `with_length_prefixed_bytes`, `/repo/src/walk.rs:165-177`, and with it `LeafWalker::with_bytes`, `:262-267`.
Simplification: the callback `f` is a pure function. -/
def withBytes (M : Machine) (cfg : Cfg) (f : Bytes → β) : Rd β := do
  let len ← M.readLen cfg
  let bytes ← Rd.peek len
  let result := f bytes
  Rd.advance len
  pure result

/-- Models `SeqWalker::new`, `/repo/src/walk.rs:475-482`. -/
def openSeq (M : Machine) (cfg : Cfg) : Rd SeqWalker := do
  let len ← M.readLen cfg
  pure ⟨len⟩

/-- Models `MapWalker::new`, `/repo/src/walk.rs:611-618`. -/
def openMap (M : Machine) (cfg : Cfg) : Rd MapWalker := do
  let len ← M.readLen cfg
  pure ⟨len⟩

/-- Models `MapWalker::find_bytes`, `/repo/src/walk.rs:741-773`. -/
def findBytes (M : Machine) (cfg : Cfg) (k : Codec κ) (v : Codec β) (predicate : Bytes → Ordering) (w : MapWalker) :
    Rd Bool :=
  MapWalker.findLoop (M.withBytes cfg id) k.skip v.skip predicate w.remaining

end Revision.Machine
