import Verif.Spec.Derive

/-! # Vocabulary for damage inside a record (C128) -/

namespace Revision

/-- `b'` is `b` after damage behind its first `n` bytes: as long as `b`, and the same up to there. -/
def DamagedAfter (n : Nat) (b b' : Bytes) : Prop := b'.length = b.length ∧ b'.take n = b.take n

/-- How many bytes of an optimised struct of revision `r` are not its payload: the revision and the length. -/
def structEnvelope (cfg : Cfg) (r : Nat) : Nat := (encU16 cfg r).length + 4

/-- How many bytes of an optimised enum of revision `r` are not its payload: the revision, the tag and, for
variants of variable length, the length. -/
def enumEnvelope (cfg : Cfg) (r : Nat) (size : VariantSize) : Nat :=
  (encU16 cfg r).length + match size with
    | .varlen => 5
    | _ => 1

/-- What comes of reading `b` depends on `b` alone, and what follows `b` is left as it is. -/
def Rd.Contained (m : Rd α) (b : Bytes) : Prop := ∃ q : Res α, ∀ t, m (b ++ t) = q.andRest t

/-- Reading record after record up to the end; a record that cannot be decoded is skipped.  The answers are
the values read, `none` for the records skipped. -/
inductive Salvages (c : Codec α) : Bytes → List (Option α) → Prop where
  | atEnd : Salvages c [] []
  | next {s v t as} : s ≠ [] → c.dec s = .ok (v, t) → Salvages c t as → Salvages c s (some v :: as)
  | passed {s e t as} : s ≠ [] → c.dec s = .err e → c.skip s = .ok ((), t) → Salvages c t as →
      Salvages c s (none :: as)

/-- A record of a log: what was written, by which version, what is stored now, and what the current version
makes of what was written. -/
structure LogRecord (α : Type) where
  revision : Nat
  value : α
  written : Bytes
  stored : Bytes
  current : α

end Revision
