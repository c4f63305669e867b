import Verif.Model.Ty

/-! Values written back to back, each with its own type. -/

namespace Revision

/-- Serialise values of various types one after another into one buffer. -/
def writeAll (cfg : Cfg) (E : Env ι) : List ((t : Ty ι) × t.denote E.X) → Res Bytes
  | [] => .ok []
  | ⟨t, v⟩ :: l => do
    let b ← (t.codec cfg E).enc v
    let bs ← writeAll cfg E l
    pure (b ++ bs)

/-- Deserialise one value of each of the given types in turn from one reader. -/
def readAll (cfg : Cfg) (E : Env ι) : List (Ty ι) → Rd (List ((t : Ty ι) × t.denote E.X))
  | [] => pure []
  | t :: ts => do
    let v ← (t.codec cfg E).dec
    let l ← readAll cfg E ts
    pure (⟨t, v⟩ :: l)

end Revision
