import Verif.Model.Base

/-! # Byte-string order -/

namespace Revision

/-- `<[u8] as Ord>::cmp`: lexicographic, a proper prefix being smaller.  Used by the code
wherever keys are compared as byte strings, e.g. `/repo/src/optimised/indexed/serialize.rs:591`. -/
def cmpBytes : Bytes → Bytes → Ordering
  | [], [] => .eq
  | [], _ :: _ => .lt
  | _ :: _, [] => .gt
  | a :: as, b :: bs => if a < b then .lt else if b < a then .gt else cmpBytes as bs

end Revision
