import Verif.Spec.Slice
import Verif.Model.Reader

/-! A cursor over a fixed buffer: what a slice reader is meant to be. -/

namespace Revision

/-- One call, on a buffer that never changes and a position within it: what it answers, and the
new position. -/
def cursorStep (buf : Bytes) (pos : Nat) : ROp → Res ROut × Nat
  | .consume n => if pos + n ≤ buf.length then (.ok .unit, pos + n) else (.err .io, pos)
  | .sub o l =>
    if o < pos then (.err .io, pos)
    else if 2 ^ 64 ≤ o - pos + l then (.err .io, pos)
    else if o + l ≤ buf.length then (.ok (.reader (.new (slice buf o (o + l)))), pos)
    else (.err .overrun, pos)
  | .read n =>
    let stop := min (pos + n) buf.length
    (.ok (.bytes (slice buf pos stop)), stop)
  | .readExact n =>
    if pos + n ≤ buf.length then (.ok (.bytes (slice buf pos (pos + n))), pos + n)
    else (.err .io, buf.length)
  | .peek n =>
    if pos + n ≤ buf.length then (.ok (.bytes (slice buf pos (pos + n))), pos) else (.err .io, pos)
  | .take n =>
    if pos + n ≤ buf.length then (.ok (.bytes (slice buf pos (pos + n))), pos + n)
    else (.err .io, pos)
  | .borrow n =>
    if pos + n ≤ buf.length then (.ok (.bytes (slice buf pos (pos + n))), pos + n)
    else (.err .io, pos)
  | .position => (.ok (.nat pos), pos)
  | .remaining => (.ok (.bytes (slice buf pos buf.length)), pos)

/-- A history of calls. -/
def cursorRun (buf : Bytes) (pos : Nat) : List ROp → List (Res ROut) × Nat
  | [] => ([], pos)
  | op :: ops =>
    let (x, pos) := cursorStep buf pos op
    let (xs, pos) := cursorRun buf pos ops
    (x :: xs, pos)

end Revision
