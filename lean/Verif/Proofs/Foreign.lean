import Verif.Proofs.AllocProgram
import Verif.Proofs.ThirdIo
import Verif.Proofs.Third
import Verif.Spec.ThirdIo

/-! # Lemmas: the impls for types of other crates keep the contract -/

namespace Revision

variable {α β : Type}

/-- Impls that skip and check by decoding. -/
theorem mirror_faithful {valid : α → Prop} {enc : α → Res Bytes} {dec : Rd α}
    (h : ∀ v b, valid v → enc v = .ok b → ∀ t, dec (b ++ t) = .ok (v, t)) : (Codec.mirror valid enc dec).Faithful := by
  have hd : ∀ v b, valid v → enc v = .ok b → ∀ t, dec.discard (b ++ t) = .ok ((), t) := by
    intro v b hv hb t
    rw [Rd.discard, Rd.bind_of_ok (h v b hv hb t)]; rfl
  exact ⟨h, hd, hd, hd⟩

theorem vecC_comes_back (cfg : Cfg) (cap : Nat → Bool) {c : Codec α}
    (h : ∀ v b, c.valid v → c.enc v = .ok b → ∀ t, c.dec (b ++ t) = .ok (v, t)) (l : List α) (b : Bytes)
    (hv : (vecC cfg cap c).valid l) (hb : (vecC cfg cap c).enc l = .ok b) (t : Bytes) :
    (vecC cfg cap c).dec (b ++ t) = .ok (l, t) := by
  obtain ⟨h1, h2, h3⟩ := hv
  simp only [vecC] at hb ⊢
  cases he : encList c.enc l with
  | err e => rw [he] at hb; cases hb
  | panic => rw [he] at hb; cases hb
  | ok x =>
    rw [he] at hb
    cases hb
    rw [List.append_assoc, Rd.bind_of_ok (readLen_encLen cfg h1 _)]
    by_cases hl : l = []
    · subst hl
      simp [encList] at he
      subst he
      simp
    · rw [if_neg (by simpa using hl), h2 hl]
      exact Rd.readN_append (fun p hp x t hx => h p x (h3 p hp) hx t) he t

open Rd.Eats

theorem convC_eats {base : Codec β} {parts : α → Res β} {make : β → Option α} (h : base.dec.Eats 1) :
    (convC base parts make).dec.Eats 1 :=
  bind0 h fun p => by
    cases make p with
    | none => exact fail _ _
    | some v => exact pure _

theorem pairC_eats {a : Codec α} {b : Codec β} (ha : a.dec.Eats 1) (hb : b.dec.Eats 1) : (pairC a b).dec.Eats 1 :=
  bind0 ha fun _ => (bind0 hb fun _ => pure _).weaken (by omega)

theorem vecC_eats (cfg : Cfg) (cap : Nat → Bool) {c : Codec α} (h : c.dec.Eats 1) : (vecC cfg cap c).dec.Eats 1 :=
  bind0 (readLen_eats cfg) fun n => ite (pure _) (bind0 (alloc _) fun _ => (readN h n).weaken (by omega))

theorem coordC_eats : coordC.dec.Eats 1 :=
  pairC_eats (a := floatC 8) (b := floatC 8) ((readLE_eats 64 8).weaken (by omega)) ((readLE_eats 64 8).weaken (by omega))

theorem lineStringC_eats (cfg : Cfg) (cap : Nat → Bool) : (lineStringC cfg cap).dec.Eats 1 :=
  vecC_eats cfg cap coordC_eats

theorem polygonC_eats (cfg : Cfg) (cap capL : Nat → Bool) : (polygonC cfg cap capL).dec.Eats 1 :=
  convC_eats (pairC_eats (lineStringC_eats cfg cap) (vecC_eats cfg capL (lineStringC_eats cfg cap)))

theorem stringC_eats (cfg : Cfg) (cap : Nat → Bool) : (stringC cfg cap).dec.Eats 1 :=
  bind0 (readBytes_eats cfg cap) fun _ => lift _

section
variable {δ ρ : Type} (cfg : Cfg) (cap : Nat → Bool) (D : DecimalLib δ) (R : RegexLib ρ)

theorem Crate.heavy (i : Crate) : (i.codec cfg cap D R).dec.Eats 1 := by
  have hi := fun k => decInt_eats cfg k
  cases i with
  | dateTime => exact convC_eats (pairC_eats (hi _) (hi _))
  | naiveDate => exact convC_eats (pairC_eats (hi _) (pairC_eats (hi _) (hi _)))
  | naiveTime => exact convC_eats (pairC_eats (hi _) (pairC_eats (hi _) (pairC_eats (hi _) (hi _))))
  | timeDelta => exact convC_eats (pairC_eats (hi _) (hi _))
  | coord => exact coordC_eats
  | lineString => exact lineStringC_eats cfg cap
  | multiPoint => exact lineStringC_eats cfg cap
  | multiLineString => exact vecC_eats cfg cap (lineStringC_eats cfg cap)
  | polygon => exact polygonC_eats cfg cap cap
  | multiPolygon => exact vecC_eats cfg cap (polygonC_eats cfg cap cap)
  | decimal => exact bind0 ((readLE_eats 128 16).weaken (by omega)) fun _ => pure _
  | decimals =>
    exact bind0 (readLen_eats cfg) fun n => ite (pure _) (bind0 (alloc _) fun _ =>
      (readN (k := 0) (bind0 ((readLE_eats 128 16).weaken (by omega)) fun _ => pure _) n).weaken (by omega))
  | regex =>
    refine bind0 (stringC_eats cfg cap) fun s => ?_
    cases R.parse s with
    | none => exact fail _ _
    | some v => exact pure _

variable {D R}

theorem Crate.faithful (hD : D.Law) (hR : R.Law) (i : Crate) (hi : i ≠ .decimals) : (i.codec cfg cap D R).Faithful := by
  have hc := coordC_lawful.round_trip
  cases i with
  | dateTime => exact mirror_faithful (dateTimeC_lawful cfg).round_trip
  | naiveDate => exact mirror_faithful (naiveDateC_lawful cfg).round_trip
  | naiveTime => exact mirror_faithful (naiveTimeC_lawful cfg).round_trip
  | timeDelta => exact mirror_faithful (timeDeltaC_lawful cfg).round_trip
  | coord => exact mirror_faithful coordC_lawful.round_trip
  | lineString => exact mirror_faithful (lineStringC_lawful cfg cap).round_trip
  | multiPoint => exact mirror_faithful (lineStringC_lawful cfg cap).round_trip
  | multiLineString => exact mirror_faithful (multiLineStringC_lawful cfg cap cap).round_trip
  | polygon => exact convC_faithful (polygon_base_lawful cfg cap cap)
  | multiPolygon =>
    exact mirror_faithful (vecC_comes_back cfg cap (convC_faithful (polygon_base_lawful cfg cap cap)).round_trip)
  | decimal =>
    refine (decimalC_lawful hD).faithful' ?_
    exact Rd.Agree.bind_pure_left (Rd.Agree.refl _).discard
  | decimals => exact absurd rfl hi
  | regex => exact (regexC_lawful hR cfg cap).faithful' (Rd.Agree.refl _).discard

end

end Revision
