import Verif.Model.Stream
import Verif.Model.Sink

/-! # The impls of a type on arbitrary readers and writers -/

namespace Revision

/-- The impls of a type on arbitrary readers and writers: `deserialize_revisioned`, `skip_revisioned`,
`skip_check_revisioned` and `serialize_revisioned`, `/repo/src/lib.rs:32-47`, `:152-162`. -/
structure Io (α : Type) where
  dec : Prog α
  skip : Prog Unit
  check : Prog Unit
  wr : α → Wr

end Revision
