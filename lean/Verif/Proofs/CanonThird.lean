import Verif.Proofs.CanonDerive
import Verif.Proofs.Third

/-! Helper lemmas: writing values of types of other crates that were read. -/

namespace Revision

variable {R : Bytes → Bytes → Bytes → Prop} {cfg : Cfg}

theorem intC_again (hR : Joins R) (hn : Nums cfg R) (k : IntTy) : Again R (intC cfg k).dec (intC cfg k).enc := by
  intro s v r hd
  refine ⟨_, rfl, ?_⟩
  by_cases hk : k.IsVar
  · exact hn k _ _ _ hd
  · exact int8_again hR hk hd

theorem convC_again {base : Codec β} (hb : Again R base.dec base.enc) {parts : α → Res β} {make : β → Option α}
    (hp : ∀ p v, make p = some v → parts v = .ok p) : Again R (convC base parts make).dec (convC base parts make).enc := by
  intro s v r hd
  obtain ⟨p, t, h1, h2⟩ := Rd.bind_ok.1 hd
  split at h2
  · rename_i v' hv
    have h2 : Res.ok (v', t) = .ok (v, r) := h2
    injection h2 with h2
    injection h2 with h2 h3
    subst h2; subst h3
    obtain ⟨b, h4, h5⟩ := hb _ _ _ h1
    refine ⟨b, ?_, h5⟩
    show (parts v' >>= fun p => base.enc p) = _
    rw [hp p v' hv]
    exact h4
  · cases h2

theorem NaiveTime.parts_make (p) (t : NaiveTime) (h : NaiveTime.make p = some t) : t.parts = p := by
  obtain ⟨h', m, s, n⟩ := p
  obtain ⟨hc, rfl⟩ := (NaiveTime.make_iff h' m s n t).1 h
  unfold isTimeOfDay at hc
  have e : (BitVec.ofNat 32 (h'.toNat * 3600 + m.toNat * 60 + s.toNat)).toNat =
      h'.toNat * 3600 + m.toNat * 60 + s.toNat := by
    rw [BitVec.toNat_ofNat]; exact Nat.mod_eq_of_lt (by omega)
  simp only [NaiveTime.parts, e]
  refine Prod.ext ?_ (Prod.ext ?_ (Prod.ext ?_ rfl))
  all_goals
    apply BitVec.eq_of_toNat_eq
    simp only [BitVec.toNat_ofNat]
    omega

theorem floatC_again (hR : Joins R) (w : Nat) : Again R (floatC w).dec (floatC w).enc := readLE_again hR (Nat.le_refl _)

theorem coordC_again (hR : Joins R) : Again R coordC.dec coordC.enc := pairC_again hR (floatC_again hR 8) (floatC_again hR 8)

theorem lineStringC_again (hR : Joins R) (hn : Nums cfg R) (cap) : Again R (lineStringC cfg cap).dec (lineStringC cfg cap).enc :=
  vecC_again hR hn (coordC_again hR)

theorem multiLineStringC_again (hR : Joins R) (hn : Nums cfg R) (cap capL) :
    Again R (multiLineStringC cfg cap capL).dec (multiLineStringC cfg cap capL).enc :=
  vecC_again hR hn (lineStringC_again hR hn cap)

theorem regexC_again (hR : Joins R) (hn : Nums cfg R) {L : RegexLib ρ} (hL : L.Law) (cap) :
    Again R (regexC cfg cap L).dec (regexC cfg cap L).enc := by
  intro s v r hd
  obtain ⟨p, t, h1, h2⟩ := Rd.bind_ok.1 hd
  split at h2
  · rename_i v' hv
    have h2 : Res.ok (v', t) = .ok (v, r) := h2
    injection h2 with h2
    injection h2 with h2 h3
    subst h2; subst h3
    obtain ⟨b, h4, h5⟩ := stringC_again hR hn _ _ _ h1
    refine ⟨b, ?_, h5⟩
    show Res.ok (encBytes cfg (strBytes (L.asStr v'))) = _
    rw [hL _ _ hv]
    exact h4
  · cases h2

theorem decimalC_again (L : DecimalLib δ) : Again NotLonger (decimalC L).dec (decimalC L).enc := by
  intro s v r hd
  obtain ⟨p, h1, rfl⟩ := bind_pure_ok.1 hd
  obtain ⟨rfl⟩ := readLE_split (by decide) h1
  refine ⟨_, rfl, _, rfl, ?_⟩
  simp [NeverLonger, leBytes_length]

/-- The types of other crates, but for decimals and bitmaps. -/
theorem Third.again (hR : Joins R) (hn : Nums cfg R) (cap : Nat → Bool) (D : DecimalLib δ) {L : RegexLib ρ} (hL : L.Law)
    (B : BitmapLib β) (validB : β → Prop) (i : Third) (h1 : i ≠ .decimal) (h2 : i ≠ .bitmap) :
    Again R (Third.codec cfg cap D L B validB i).dec (Third.codec cfg cap D L B validB i).enc := by
  have hi := intC_again hR hn
  cases i with
  | dateTime =>
    refine convC_again (pairC_again hR (hi .i64) (hi .u32)) fun p v h => ?_
    obtain ⟨s, n⟩ := p
    obtain ⟨-, -, rfl⟩ := (DateTime.make_iff s n v).1 h
    rfl
  | naiveDate =>
    refine convC_again (pairC_again hR (hi .i32) (pairC_again hR (hi .u32) (hi .u32))) fun p v h => ?_
    obtain ⟨y, m, d⟩ := p
    obtain ⟨-, rfl⟩ := (NaiveDate.make_iff y m d v).1 h
    rfl
  | naiveTime =>
    exact convC_again (pairC_again hR (hi .u32) (pairC_again hR (hi .u32) (pairC_again hR (hi .u32) (hi .u32))))
      fun p v h => by rw [NaiveTime.parts_make p v h]
  | timeDelta =>
    refine convC_again (pairC_again hR (hi .i64) (hi .i32)) fun p v h => ?_
    obtain ⟨s, n⟩ := p
    obtain ⟨he, rfl⟩ := (TimeDelta.make_iff s n v).1 h
    exact TimeDelta.parts_eq he
  | coord => exact coordC_again hR
  | lineString => exact lineStringC_again hR hn cap
  | multiLineString => exact multiLineStringC_again hR hn cap cap
  | regex => exact regexC_again hR hn hL cap
  | decimal => exact absurd rfl h1
  | bitmap => exact absurd rfl h2

end Revision
