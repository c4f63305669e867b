import Verif.Model.Io
import Verif.Spec.Laws
import Verif.Spec.Sink
import Verif.Spec.Stream

/-!
# Impls written by hand

Fields of derived types may have types whose impls are not derived: those this crate has for types of other
crates, and the user's own.  `Foreign X` is such a type with values `X` and impls that keep the contract of the
traits.
-/

namespace Revision

/-- The impls of a type on slices and `Vec<u8>`, the same impls on arbitrary readers and writers, and their
contract. -/
structure Foreign (X : Type) where
  codec : Codec X
  io : Io X
  /-- Both describe the same impls. -/
  dec_slice : io.dec.onSlice = codec.dec
  skip_slice : io.skip.onSlice = codec.skip
  check_slice : io.check.onSlice = codec.check
  to_vec : ∀ v, (io.wr v).toRes = codec.enc v
  /-- The end of the input, and nothing else, is reported as `Error::Io`. -/
  dec_short : io.dec.Short (· = .io)
  dec_sound : io.dec.Sound (· = .io)
  skip_short : io.skip.Short (· = .io)
  /-- Bytes are written with `write_all`. -/
  write_all : ∀ v, ∀ o ∈ (io.wr v).ops, ∃ b, o = .all b
  /-- What has been serialised is read back, skipped and checked. -/
  faithful : codec.Faithful
  /-- Skipping a slice is skipping. -/
  skipS_eq : codec.skipS = codec.skip
  /-- Every value takes at least one byte. -/
  heavy : codec.Heavy

end Revision
