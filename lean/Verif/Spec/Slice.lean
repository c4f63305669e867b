import Verif.Model.Base

/-! Sub-slices of a buffer. -/

namespace Revision

/-- The bytes of `buf` at positions `start ≤ i < stop`. -/
def slice (buf : Bytes) (start stop : Nat) : Bytes := (buf.take stop).drop start

end Revision
