import Verif.Model.Codec

/-!
# Specification vocabulary

The statements a user of the crate relies on, phrased over an arbitrary reader or codec.
Nothing here mentions how a particular type is encoded.
-/

namespace Revision

/-- `m` reads a self-delimiting record: whenever it succeeds on a buffer,
* the bytes it consumed are a prefix `u` of the buffer,
* on `u` followed by anything else it succeeds with the same result and leaves
  exactly what follows, and
* on every strict prefix of `u` (a truncated record) it returns an error. -/
def Rd.Framed (m : Rd α) : Prop :=
  ∀ s a r, m s = .ok (a, r) →
    ∃ u, s = u ++ r ∧ (∀ t, m (u ++ t) = .ok (a, t)) ∧
      (∀ p q, u = p ++ q → q ≠ [] → ∃ e, m p = .err e)

/-- Wherever `d` succeeds, `k` succeeds and stops at the same place. -/
def Rd.Agree (d : Rd α) (k : Rd β) : Prop :=
  ∀ s a r, d s = .ok (a, r) → ∃ x, k s = .ok (x, r)

/-- `k` succeeds exactly where `d` does, stopping at the same place. -/
def Rd.SameAccept (d : Rd α) (k : Rd Unit) : Prop :=
  ∀ s r, k s = .ok ((), r) ↔ ∃ a, d s = .ok (a, r)

/-- `m` never panics, whatever the input. -/
def Rd.NoPanic (m : Rd α) : Prop := ∀ s, m s ≠ .panic

/-- Every value `m` produces satisfies `P`. -/
def Rd.Yields (m : Rd α) (P : α → Prop) : Prop := ∀ s a r, m s = .ok (a, r) → P a

/-- The contract between the five functions of a codec. -/
structure Codec.Lawful (c : Codec α) : Prop where
  /-- serialising a valid value succeeds -/
  enc_ok : ∀ v, c.valid v → ∃ b, c.enc v = .ok b
  /-- deserialising what was serialised gives the value back and consumes exactly
  the bytes written, whatever follows them -/
  round_trip : ∀ v b, c.valid v → c.enc v = .ok b → ∀ t, c.dec (b ++ t) = .ok (v, t)
  /-- deserialisation reads a self-delimiting record -/
  framed : c.dec.Framed
  /-- deserialised values are valid -/
  sound : c.dec.Yields c.valid
  /-- skipping follows decoding -/
  skip_agree : c.dec.Agree c.skip
  /-- skipping reads a self-delimiting record -/
  skip_framed : c.skip.Framed
  /-- the slice-specialised skip behaves like the generic one -/
  skipS_eq : c.skipS = c.skip

/-- Skipping has left `t`, or, if it may fail, failed. -/
def Lands (may : Bool) (x : Res (Unit × Bytes)) (t : Bytes) : Prop := x = .ok ((), t) ∨ may = true ∧ ∀ a, x ≠ .ok a

/-- What every encoding used inside a derived type must satisfy, whatever else it does on bytes
nobody wrote: serialised values, followed by anything, are read back, skipped and checked, and
what follows is left. -/
structure Codec.Faithful (c : Codec α) : Prop where
  round_trip : ∀ v b, c.valid v → c.enc v = .ok b → ∀ t, c.dec (b ++ t) = .ok (v, t)
  skip_after : ∀ v b, c.valid v → c.enc v = .ok b → ∀ t, c.skip (b ++ t) = .ok ((), t)
  skipS_after : ∀ v b, c.valid v → c.enc v = .ok b → ∀ t, c.skipS (b ++ t) = .ok ((), t)
  check_after : ∀ v b, c.valid v → c.enc v = .ok b → ∀ t, c.check (b ++ t) = .ok ((), t)

/-- `skip_check` accepts exactly what `deserialize` accepts. -/
def Codec.Checks (c : Codec α) : Prop := c.dec.SameAccept c.check

/-- None of the reading functions of the codec panics. -/
structure Codec.PanicFree (c : Codec α) : Prop where
  dec : c.dec.NoPanic
  skip : c.skip.NoPanic
  check : c.check.NoPanic

/-- Every value takes at least one byte. -/
def Codec.Heavy (c : Codec α) : Prop := ∀ s v r, c.dec s = .ok (v, r) → r.length < s.length

end Revision
