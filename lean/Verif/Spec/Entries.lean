import Verif.Model.Indexed

/-!
# The entries on the wire of an indexed map or sequence

Said without the decoders of the containers: a header byte, a varint count, and the entries, either one
after another or behind a table.
-/

namespace Revision

/-- Reading with `r` again and again goes from `s` to `rest`, giving the list. -/
inductive Each (r : Rd α) : List α → Bytes → Bytes → Prop
  | nil {s} : Each r [] s s
  | cons {a l s s' rest} : r s = .ok (a, s') → Each r l s' rest → Each r (a :: l) s rest

/-- The input `s` starts with a count and the entries `wire` of a map, and `rest` follows.  Bit 0 of the
header says whether the entries are in pairs, or behind a table of eight bytes per entry and eight
more, first all keys and then all values. -/
def MapOnWire (k : Rd κ) (v : Rd ν) (wire : List (κ × ν)) (s rest : Bytes) : Prop :=
  ∃ flags s₁ s₂, s = flags :: s₁ ∧ readVarint s₁ = .ok (wire.length, s₂) ∧
    ((flags &&& 1 = 0 ∧ Each (do let a ← k; let b ← v; pure (a, b)) wire s₂ rest) ∨
     (flags &&& 1 ≠ 0 ∧ ∃ table s₃ s₄, s₂ = table ++ s₃ ∧ table.length = 8 * wire.length + 8 ∧
        Each k (wire.map Prod.fst) s₃ s₄ ∧ Each v (wire.map Prod.snd) s₄ rest))

/-- The same for sequences and sets: a table of four bytes per element. -/
def SeqOnWire (c : Rd α) (wire : List α) (s rest : Bytes) : Prop :=
  ∃ flags s₁ s₂, s = flags :: s₁ ∧ readVarint s₁ = .ok (wire.length, s₂) ∧
    ((flags &&& 1 = 0 ∧ Each c wire s₂ rest) ∨
     (flags &&& 1 ≠ 0 ∧ ∃ table s₃, s₂ = table ++ s₃ ∧ table.length = 4 * wire.length ∧
        Each c wire s₃ rest))

end Revision
