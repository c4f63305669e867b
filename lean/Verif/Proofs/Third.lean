import Verif.Spec.Third
import Verif.Proofs.Ty

/-! # Helper lemmas for the types of other crates -/

namespace Revision

/-! ### Types rebuilt from their parts -/

theorem convC_dec_yields {base : Codec β} (hb : base.Lawful) {parts : α → Res β} {make : β → Option α}
    (h : ∀ p v, base.valid p → make p = some v → ∃ p', parts v = .ok p' ∧ base.valid p' ∧ make p' = some v) :
    (convC base parts make).dec.Yields (convC base parts make).valid := by
  refine Rd.Yields.bind hb.sound fun p hp => ?_
  cases hm : make p with
  | none => exact Rd.Yields.fail _
  | some v => exact Rd.Yields.pure (h p v hp hm)

theorem convC_framed {base : Codec β} (hb : base.Lawful) {parts : α → Res β} {make : β → Option α} :
    (convC base parts make).dec.Framed := by
  refine Rd.Framed.bind hb.framed fun p => ?_
  cases make p with
  | none => exact Rd.Framed.fail _
  | some v => exact Rd.Framed.pure _

theorem convC_enc {base : Codec β} {parts : α → Res β} {make : β → Option α} {v : α} {p : β}
    (h : parts v = .ok p) : (convC base parts make).enc v = base.enc p := by
  show (parts v >>= fun p => base.enc p) = _
  rw [h]; rfl

theorem convC_dec {base : Codec β} {parts : α → Res β} {make : β → Option α} {s r : Bytes} {p : β}
    (h : base.dec s = .ok (p, r)) :
    (convC base parts make).dec s = match make p with
      | some v => .ok (v, r)
      | none => .err .deserialize := by
  show (base.dec >>= _) s = _
  rw [Rd.bind_of_ok h]
  cases make p <;> rfl

theorem convC_round_trip {base : Codec β} (hb : base.Lawful) {parts : α → Res β} {make : β → Option α}
    {v : α} {b : Bytes} (hv : (convC base parts make).valid v) (he : (convC base parts make).enc v = .ok b)
    (t : Bytes) : (convC base parts make).dec (b ++ t) = .ok (v, t) := by
  obtain ⟨p, hp, hpv, hm⟩ := hv
  rw [convC_enc hp] at he
  rw [convC_dec (hb.round_trip p b hpv he t), hm]

theorem convC_enc_ok {base : Codec β} (hb : base.Lawful) {parts : α → Res β} {make : β → Option α}
    {v : α} (hv : (convC base parts make).valid v) : ∃ b, (convC base parts make).enc v = .ok b := by
  obtain ⟨p, hp, hpv, -⟩ := hv
  rw [convC_enc hp]
  exact hb.enc_ok p hpv

theorem convC_lawful {base : Codec β} (hb : base.Lawful) {parts : α → Res β} {make : β → Option α}
    (h : ∀ p v, base.valid p → make p = some v → ∃ p', parts v = .ok p' ∧ base.valid p' ∧ make p' = some v) :
    (convC base parts make).Lawful :=
  Codec.mirror_lawful (fun _ hv => convC_enc_ok hb hv) (fun _ _ hv he t => convC_round_trip hb hv he t)
    (convC_framed (parts := parts) hb) (convC_dec_yields hb h)

theorem convC_faithful {base : Codec β} (hb : base.Lawful) {parts : α → Res β} {make : β → Option α} :
    (convC base parts make).Faithful where
  round_trip := fun _ _ hv he t => convC_round_trip hb hv he t
  skip_after := fun _ _ hv he t => by
    show ((convC base parts make).dec.discard) _ = _
    rw [Rd.discard, Rd.bind_of_ok (convC_round_trip hb hv he t)]; rfl
  skipS_after := fun _ _ hv he t => by
    show ((convC base parts make).dec.discard) _ = _
    rw [Rd.discard, Rd.bind_of_ok (convC_round_trip hb hv he t)]; rfl
  check_after := fun _ _ hv he t => by
    show ((convC base parts make).dec.discard) _ = _
    rw [Rd.discard, Rd.bind_of_ok (convC_round_trip hb hv he t)]; rfl

theorem convC_noPanic {base : Codec β} (hb : base.PanicFree) {parts : α → Res β} {make : β → Option α} :
    (convC base parts make).PanicFree := by
  refine Codec.mirror_panicFree (Rd.NoPanic.bind hb.dec fun p => ?_)
  cases make p with
  | none => exact Rd.NoPanic.fail _
  | some v => exact Rd.NoPanic.pure _

/-- Skips replaced by decoding. -/
theorem mirrored_lawful {c : Codec α} (hc : c.Lawful) : (Codec.mirror c.valid c.enc c.dec).Lawful :=
  Codec.mirror_lawful hc.enc_ok hc.round_trip hc.framed hc.sound

/-! ### chrono -/

theorem time_base_lawful (cfg : Cfg) :
    (pairC (intC cfg .u32) (pairC (intC cfg .u32) (pairC (intC cfg .u32) (intC cfg .u32)))).Lawful :=
  pairC_lawful (intC_lawful cfg _) (pairC_lawful (intC_lawful cfg _)
    (pairC_lawful (intC_lawful cfg _) (intC_lawful cfg _)))

theorem NaiveTime.make_iff (h m s n : BitVec 32) (t : NaiveTime) :
    NaiveTime.make (h, m, s, n) = some t ↔
      isTimeOfDay h.toNat m.toNat s.toNat n.toNat ∧
      t = ⟨BitVec.ofNat 32 (h.toNat * 3600 + m.toNat * 60 + s.toNat), n⟩ := by
  simp only [NaiveTime.make, isTimeOfDay]
  split
  · constructor
    · intro h; cases h
    · rintro ⟨h, -⟩; omega
  · constructor
    · intro h; cases h; exact ⟨by omega, rfl⟩
    · rintro ⟨-, rfl⟩; rfl

theorem NaiveTime.make_none (h m s n : BitVec 32) :
    NaiveTime.make (h, m, s, n) = none ↔ ¬ isTimeOfDay h.toNat m.toNat s.toNat n.toNat := by
  simp only [NaiveTime.make, isTimeOfDay]
  split
  · exact ⟨fun _ => by omega, fun _ => rfl⟩
  · exact ⟨fun h => (by cases h), fun h => absurd (by omega) h⟩

theorem NaiveTime.make_parts {t : NaiveTime} (h : t.Exists) :
    NaiveTime.make t.parts = some t ↔ t.Regular := by
  obtain ⟨h1, h2⟩ := h
  unfold NaiveTime.parts
  rw [NaiveTime.make_iff]
  unfold isTimeOfDay NaiveTime.Regular
  simp only [BitVec.toNat_ofNat]
  have e1 : t.secs.toNat / 3600 % 2 ^ 32 = t.secs.toNat / 3600 := by omega
  have e2 : t.secs.toNat / 60 % 60 % 2 ^ 32 = t.secs.toNat / 60 % 60 := by omega
  have e3 : t.secs.toNat % 60 % 2 ^ 32 = t.secs.toNat % 60 := by omega
  rw [e1, e2, e3]
  constructor
  · rintro ⟨h, -⟩; omega
  · intro h
    refine ⟨by omega, ?_⟩
    cases t with
    | mk secs frac =>
      congr 1
      apply BitVec.eq_of_toNat_eq
      simp only [BitVec.toNat_ofNat]
      simp only at h1 ⊢
      have : secs.toNat / 3600 = secs.toNat / 60 / 60 := by rw [Nat.div_div_eq_div_mul]
      omega

theorem NaiveTime.make_exists {p} {t : NaiveTime} (h : NaiveTime.make p = some t) : t.Exists ∧ t.Regular := by
  obtain ⟨a, b, c, d⟩ := p
  obtain ⟨h1, rfl⟩ := (NaiveTime.make_iff a b c d t).1 h
  unfold isTimeOfDay at h1
  unfold NaiveTime.Exists NaiveTime.Regular
  simp only [BitVec.toNat_ofNat]
  rw [Nat.mod_eq_of_lt (by omega)]
  constructor
  · constructor <;> omega
  · omega

theorem naiveTimeC_valid (cfg : Cfg) {t : NaiveTime} (h : t.Exists) :
    (naiveTimeC cfg).valid t ↔ t.Regular := by
  rw [← NaiveTime.make_parts h]
  constructor
  · rintro ⟨p, hp, -, hm⟩
    simp only [Res.ok.injEq] at hp
    rw [hp]; exact hm
  · intro hm
    exact ⟨_, rfl, ⟨trivial, trivial, trivial, trivial⟩, hm⟩

theorem naiveTimeC_lawful (cfg : Cfg) : (naiveTimeC cfg).Lawful :=
  convC_lawful (time_base_lawful cfg) fun _ _ _ hm =>
    (naiveTimeC_valid cfg (NaiveTime.make_exists hm).1).2 (NaiveTime.make_exists hm).2

theorem monthDays_iff (y : Int) (m d : Nat) :
    (1 ≤ d ∧ d ≤ monthDays y m) ↔ (1 ≤ m ∧ m ≤ 12 ∧ 1 ≤ d ∧ d ≤ 31 ∧
      (m = 4 ∨ m = 6 ∨ m = 9 ∨ m = 11 → d ≤ 30) ∧
      (m = 2 → d ≤ 29 ∧ (d = 29 → 4 ∣ y ∧ (100 ∣ y → 400 ∣ y)))) := by
  by_cases hm : m ≤ 12
  · have hl : leapYear y = true ↔ (4 ∣ y ∧ (100 ∣ y → 400 ∣ y)) := by
      unfold leapYear
      simp only [Bool.and_eq_true, decide_eq_true_eq, Bool.or_eq_true, bne_iff_ne, ne_eq]
      omega
    have : m = 0 ∨ m = 1 ∨ m = 2 ∨ m = 3 ∨ m = 4 ∨ m = 5 ∨ m = 6 ∨ m = 7 ∨ m = 8 ∨ m = 9 ∨ m = 10 ∨
      m = 11 ∨ m = 12 := by omega
    rcases this with rfl | rfl | rfl | rfl | rfl | rfl | rfl | rfl | rfl | rfl | rfl | rfl | rfl <;>
      simp only [monthDays]
    case inr.inr.inl =>
      rw [← hl]
      cases leapYear y <;> simp <;> omega
    all_goals (simp; try omega)
  · have : monthDays y m = 0 := by
      unfold monthDays
      split <;> first | omega | rfl
    omega

theorem NaiveDate.make_iff (y m d : BitVec 32) (t : NaiveDate) :
    NaiveDate.make (y, m, d) = some t ↔ isDate y.toInt m.toNat d.toNat ∧ t = ⟨y, m, d⟩ := by
  have := monthDays_iff y.toInt m.toNat d.toNat
  simp only [NaiveDate.make, isDate]
  rw [← this]
  split
  · exact ⟨fun h => by cases h; exact ⟨by assumption, rfl⟩, fun h => by rw [h.2]⟩
  · exact ⟨fun h => (by cases h), fun h => absurd h.1 (by assumption)⟩

theorem NaiveDate.make_none (y m d : BitVec 32) :
    NaiveDate.make (y, m, d) = none ↔ ¬ isDate y.toInt m.toNat d.toNat := by
  cases h : NaiveDate.make (y, m, d) with
  | none =>
    refine ⟨fun _ hd => ?_, fun _ => rfl⟩
    have := (NaiveDate.make_iff y m d ⟨y, m, d⟩).2 ⟨hd, rfl⟩
    rw [h] at this
    cases this
  | some t => simp [((NaiveDate.make_iff y m d t).1 h).1]

theorem naiveDateC_valid (cfg : Cfg) (t : NaiveDate) : (naiveDateC cfg).valid t ↔ t.Exists := by
  constructor
  · rintro ⟨p, hp, -, hm⟩
    simp only [Res.ok.injEq] at hp
    subst hp
    exact ((NaiveDate.make_iff _ _ _ _).1 hm).1
  · intro h
    exact ⟨_, rfl, ⟨trivial, trivial, trivial⟩, (NaiveDate.make_iff _ _ _ _).2 ⟨h, rfl⟩⟩

theorem naiveDateC_lawful (cfg : Cfg) : (naiveDateC cfg).Lawful :=
  convC_lawful (pairC_lawful (intC_lawful cfg _) (pairC_lawful (intC_lawful cfg _) (intC_lawful cfg _)))
    fun p v _ hm => by
      obtain ⟨y, m, d⟩ := p
      obtain ⟨h1, rfl⟩ := (NaiveDate.make_iff _ _ _ _).1 hm
      exact (naiveDateC_valid cfg _).2 h1

theorem DateTime.make_iff (s : BitVec 64) (n : BitVec 32) (t : DateTime) :
    DateTime.make (s, n) = some t ↔ (DateTime.mk s n).Exists ∧ (DateTime.mk s n).Regular ∧ t = ⟨s, n⟩ := by
  simp only [DateTime.make, DateTime.Exists, DateTime.Regular]
  split
  · exact ⟨fun h => by cases h; exact ⟨by omega, by omega, rfl⟩, fun h => by rw [h.2.2]⟩
  · rename_i hc
    exact ⟨fun h => (by cases h), fun h => absurd (by omega) hc⟩

theorem DateTime.make_none (s : BitVec 64) (n : BitVec 32) :
    DateTime.make (s, n) = none ↔ ¬ ((DateTime.mk s n).Exists ∧ (DateTime.mk s n).Regular) := by
  cases h : DateTime.make (s, n) with
  | none =>
    refine ⟨fun _ hd => ?_, fun _ => rfl⟩
    have := (DateTime.make_iff s n ⟨s, n⟩).2 ⟨hd.1, hd.2, rfl⟩
    rw [h] at this
    cases this
  | some t =>
    have := (DateTime.make_iff s n t).1 h
    simp [this.1, this.2.1]

theorem dateTimeC_valid (cfg : Cfg) (t : DateTime) : (dateTimeC cfg).valid t ↔ t.Exists ∧ t.Regular := by
  constructor
  · rintro ⟨p, hp, -, hm⟩
    simp only [Res.ok.injEq] at hp
    subst hp
    exact ⟨((DateTime.make_iff _ _ _).1 hm).1, ((DateTime.make_iff _ _ _).1 hm).2.1⟩
  · intro h
    exact ⟨_, rfl, ⟨trivial, trivial⟩, (DateTime.make_iff _ _ _).2 ⟨h.1, h.2, rfl⟩⟩

theorem dateTimeC_lawful (cfg : Cfg) : (dateTimeC cfg).Lawful :=
  convC_lawful (pairC_lawful (intC_lawful cfg _) (intC_lawful cfg _)) fun p v _ hm => by
    obtain ⟨s, n⟩ := p
    obtain ⟨h1, h2, rfl⟩ := (DateTime.make_iff _ _ _).1 hm
    exact (dateTimeC_valid cfg _).2 ⟨h1, h2⟩

theorem TimeDelta.make_iff (s : BitVec 64) (n : BitVec 32) (t : TimeDelta) :
    TimeDelta.make (s, n) = some t ↔ (TimeDelta.mk s n).Exists ∧ t = ⟨s, n⟩ := by
  have hn := BitVec.toInt_eq_toNat_cond n
  simp only [TimeDelta.make, TimeDelta.Exists, TimeDelta.total]
  split
  · exact ⟨fun h => (by cases h), fun h => absurd h.1.1 (by split at hn <;> omega)⟩
  · split
    · exact ⟨fun h => (by cases h), fun h => absurd h.1 (by omega)⟩
    · refine ⟨fun h => by cases h; exact ⟨by omega, rfl⟩, fun h => by rw [h.2]⟩

theorem TimeDelta.make_none (s : BitVec 64) (n : BitVec 32) :
    TimeDelta.make (s, n) = none ↔ ¬ (TimeDelta.mk s n).Exists := by
  cases h : TimeDelta.make (s, n) with
  | none =>
    refine ⟨fun _ hd => ?_, fun _ => rfl⟩
    have := (TimeDelta.make_iff s n ⟨s, n⟩).2 ⟨hd, rfl⟩
    rw [h] at this
    cases this
  | some t => simp [((TimeDelta.make_iff s n t).1 h).1]

/-- The numbers written are the seconds rounded down and the rest. -/
theorem TimeDelta.parts_eq {d : TimeDelta} (h : d.Exists) : d.parts = .ok (d.secs, d.nanos) := by
  obtain ⟨h1, h2, h3⟩ := h
  unfold TimeDelta.total at h2 h3
  have hn : d.nanos.toInt = d.nanos.toNat := by
    have := BitVec.toInt_eq_toNat_cond d.nanos
    split at this <;> omega
  have hs : -(2 ^ 63) ≤ d.secs.toInt ∧ d.secs.toInt < 2 ^ 63 := by omega
  unfold TimeDelta.parts TimeDelta.subsecNanos TimeDelta.numSeconds
  by_cases hc : d.secs.toInt < 0 ∧ d.nanos.toInt > 0
  · simp only [if_pos hc]
    have e1 : (d.nanos - 1000000000#32).toInt = d.nanos.toNat - 1000000000 := by
      rw [BitVec.toInt_sub, hn]
      have : (1000000000#32).toInt = 1000000000 := by decide
      rw [this, Int.bmod_def]
      omega
    have e2 : (d.secs + 1).toInt = d.secs.toInt + 1 := by
      rw [BitVec.toInt_add]
      have : (1 : BitVec 64).toInt = 1 := by decide
      rw [this, Int.bmod_def]
      omega
    rw [e1, e2, if_pos (by omega), if_pos (by omega), if_pos (by omega)]
    rw [BitVec.add_sub_cancel, BitVec.sub_add_cancel]
  · simp only [if_neg hc]
    rw [if_neg (by omega)]

theorem timeDeltaC_valid (cfg : Cfg) {d : TimeDelta} (h : d.Exists) : (timeDeltaC cfg).valid d :=
  ⟨_, TimeDelta.parts_eq h, ⟨trivial, trivial⟩, (TimeDelta.make_iff _ _ _).2 ⟨h, rfl⟩⟩

theorem timeDeltaC_lawful (cfg : Cfg) : (timeDeltaC cfg).Lawful :=
  convC_lawful (pairC_lawful (intC_lawful cfg _) (intC_lawful cfg _)) fun p v _ hm => by
    obtain ⟨s, n⟩ := p
    obtain ⟨h1, rfl⟩ := (TimeDelta.make_iff _ _ _).1 hm
    exact timeDeltaC_valid cfg h1

/-! ### geo -/

theorem coordC_lawful : coordC.Lawful := mirrored_lawful (pairC_lawful (floatC_lawful 8) (floatC_lawful 8))

theorem lineStringC_lawful (cfg : Cfg) (cap) : (lineStringC cfg cap).Lawful :=
  mirrored_lawful (vecC_lawful cfg cap coordC_lawful)

theorem multiLineStringC_lawful (cfg : Cfg) (cap capL) : (multiLineStringC cfg cap capL).Lawful :=
  mirrored_lawful (vecC_lawful cfg capL (lineStringC_lawful cfg cap))

theorem polygon_base_lawful (cfg : Cfg) (cap capL) :
    (pairC (lineStringC cfg cap) (vecC cfg capL (lineStringC cfg cap))).Lawful :=
  pairC_lawful (lineStringC_lawful cfg cap) (vecC_lawful cfg capL (lineStringC_lawful cfg cap))

theorem F64.zero_iff (a : F64) : (a.toNat % 2 ^ 63 == 0) = true ↔ a = 0#64 ∨ a = 0x8000000000000000#64 := by
  have hlt := a.isLt
  rw [beq_iff_eq, ← BitVec.toNat_inj, ← BitVec.toNat_inj]
  simp only [BitVec.toNat_ofNat]
  omega

theorem f64Eq_iff (a b : F64) : f64Eq a b = true ↔ F64.Same a b := by
  unfold f64Eq F64.Same
  rw [← isNaN_iff .f64 a, ← isNaN_iff .f64 b, ← F64.zero_iff, ← F64.zero_iff]
  simp only [Bool.and_eq_true, Bool.or_eq_true, Bool.not_eq_true', beq_iff_eq, Bool.not_eq_true, FloatTy.bytes]
  exact and_assoc

theorem ringClosed_iff (l : List Coord) : ringClosed l = true ↔ IsRing l := by
  unfold ringClosed IsRing
  split
  · rename_i a b h1 h2
    simp [h1, h2, Coord.eq, f64Eq_iff]
  · rename_i h
    simp only [true_iff]
    intro a b h1 h2
    exact (h a b h1 h2).elim

theorem closeRing_of_ring {l : List Coord} (h : IsRing l) : closeRing l = l := by
  unfold closeRing
  rw [if_pos ((ringClosed_iff l).2 h)]

theorem closeRing_eq_iff (l : List Coord) : closeRing l = l ↔ IsRing l := by
  refine ⟨fun h => ?_, closeRing_of_ring⟩
  rw [← ringClosed_iff]
  unfold closeRing at h
  by_cases hc : ringClosed l = true
  · exact hc
  · rw [if_neg hc] at h
    cases l with
    | nil => exact absurd rfl hc
    | cons a l => simp at h

theorem polygonC_valid (cfg : Cfg) (cap capL) (p : Polygon) :
    (polygonC cfg cap capL).valid p ↔
      (geoFits cap p.exterior ∧ geoFits capL p.interiors ∧ ∀ i ∈ p.interiors, geoFits cap i) ∧
      IsRing p.exterior ∧ ∀ i ∈ p.interiors, IsRing i := by
  constructor
  · rintro ⟨q, hq, hv, hm⟩
    simp only [Res.ok.injEq] at hq
    subst hq
    obtain ⟨⟨h1, h2, -⟩, h4, h5, h6⟩ := hv
    simp only [Option.some.injEq] at hm
    have he : closeRing p.exterior = p.exterior := by
      have := congrArg Polygon.exterior hm
      exact this
    have hi : p.interiors.map closeRing = p.interiors := by
      have := congrArg Polygon.interiors hm
      exact this
    refine ⟨⟨⟨h1, h2⟩, ⟨h4, h5⟩, fun i hi => ⟨(h6 i hi).1, (h6 i hi).2.1⟩⟩, (closeRing_eq_iff _).1 he, ?_⟩
    intro i hm
    rw [← closeRing_eq_iff]
    have : ∀ (l : List (List Coord)), l.map closeRing = l → ∀ i ∈ l, closeRing i = i := by
      intro l
      induction l with
      | nil => intro _ i hi; cases hi
      | cons a l ih =>
        intro h i hi
        simp only [List.map_cons, List.cons.injEq] at h
        rcases List.mem_cons.1 hi with rfl | hi
        · exact h.1
        · exact ih h.2 i hi
    exact this _ hi i hm
  · rintro ⟨⟨h1, h2, h3⟩, h4, h5⟩
    have ht : ∀ c, coordC.valid c := fun _ => ⟨trivial, trivial⟩
    refine ⟨_, rfl, ⟨⟨h1.1, h1.2, fun c _ => ht c⟩, h2.1, h2.2, fun i hi =>
      ⟨(h3 i hi).1, (h3 i hi).2, fun c _ => ht c⟩⟩, ?_⟩
    simp only [Option.some.injEq]
    unfold Polygon.new
    rw [closeRing_of_ring h4]
    have : p.interiors.map closeRing = p.interiors := by
      conv => rhs; rw [← List.map_id p.interiors]
      exact List.map_congr_left fun i hi => closeRing_of_ring (h5 i hi)
    rw [this]

/-- Closing a ring that starts with a proper coordinate closes it. -/
theorem closeRing_isRing {l : List Coord} (h : ∀ a, l.head? = some a → ¬ a.hasNaN) : IsRing (closeRing l) := by
  unfold closeRing
  by_cases hc : ringClosed l = true
  · rw [if_pos hc]; exact (ringClosed_iff l).1 hc
  · rw [if_neg hc]
    cases l with
    | nil => exact absurd rfl hc
    | cons a l =>
      intro x y h1 h2
      simp only [List.cons_append, List.head?_cons, Option.some.injEq, Option.toList_some] at h1 h2
      rw [← List.cons_append, List.getLast?_append] at h2
      simp only [List.getLast?_singleton, Option.some_or, Option.some.injEq] at h2
      subst h1 h2
      have := h a rfl
      unfold Coord.hasNaN at this
      rw [not_or] at this
      exact ⟨⟨this.1, this.1, .inl rfl⟩, this.2, this.2, .inl rfl⟩

/-! ### rust_decimal -/

theorem decimalC_lawful {L : DecimalLib δ} (hL : L.Law) : (decimalC L).Lawful where
  enc_ok := fun _ _ => ⟨_, rfl⟩
  round_trip := by
    intro v b hv h t
    simp only [decimalC, Res.ok.injEq] at h
    subst h
    simp only [decimalC]
    rw [Rd.bind_of_ok (readLE_leBytes _ t), ofNat_toNat_mod (n := 16) _ (Nat.le_refl _)]
    rw [show L.de (L.ser v) = v from hv]
    rfl
  framed := Rd.Framed.bind (readLE_framed _ _) fun _ => Rd.Framed.pure _
  sound := Rd.Yields.bind_any fun b => Rd.Yields.pure (hL b)
  skip_agree := Rd.Agree.bind_pure_left (Rd.Agree.bind_pure_left (Rd.Agree.readExact_advance _))
  skip_framed := Rd.Framed.advance _
  skipS_eq := Rd.consume_eq _

theorem decimalC_enc (L : DecimalLib δ) (l : List δ) :
    encList (decimalC L).enc l = .ok (l.flatMap fun v => leBytes 16 (L.ser v).toNat) := by
  induction l with
  | nil => rfl
  | cons a l ih =>
    rw [encList, ih]
    rfl

theorem decimalC_dec_length {L : DecimalLib δ} {s r : Bytes} {v : δ} (h : (decimalC L).dec s = .ok (v, r)) :
    ∃ u, s = u ++ r ∧ u.length = 16 := by
  obtain ⟨b, r', h1, h2⟩ := Rd.bind_ok.1 h
  have : r' = r := by simp at h2; exact h2.2
  subst this
  obtain ⟨c, r'', h3, h4⟩ := Rd.bind_ok.1 h1
  have : r'' = r' := by simp at h4; exact h4.2
  subst this
  unfold Rd.readExact at h3
  simp only at h3
  split at h3
  · simp only [Res.ok.injEq, Prod.mk.injEq] at h3
    refine ⟨s.take 16, ?_, by simp; omega⟩
    rw [← h3.2, List.take_append_drop]
  · cases h3

theorem readN_decimal_length {L : DecimalLib δ} : ∀ (n : Nat) {s r : Bytes} {l : List δ},
    Rd.readN n (decimalC L).dec s = .ok (l, r) → ∃ u, s = u ++ r ∧ u.length = n * 16
  | 0, s, r, l, h => by
    simp [Rd.readN] at h
    exact ⟨[], by simp [h.2], by simp⟩
  | n + 1, s, r, l, h => by
    rw [Rd.readN] at h
    obtain ⟨a, r1, h1, h2⟩ := Rd.bind_ok.1 h
    obtain ⟨as, r2, h3, h4⟩ := Rd.bind_ok.1 h2
    have : r2 = r := by simp at h4; exact h4.2
    subst this
    obtain ⟨u, rfl, hu⟩ := decimalC_dec_length h1
    obtain ⟨w, rfl, hw⟩ := readN_decimal_length n h3
    exact ⟨u ++ w, by simp, by simp [hu, hw]; omega⟩

/-! ### regex -/

theorem regexC_dec_yields {L : RegexLib ρ} (hL : L.Law) (cfg : Cfg) (cap) :
    (regexC cfg cap L).dec.Yields (regexC cfg cap L).valid := by
  refine Rd.Yields.bind (stringC_lawful cfg cap).sound fun s hs => ?_
  cases hp : L.parse s with
  | none => exact Rd.Yields.fail _
  | some r =>
    refine Rd.Yields.pure ?_
    have := hL s r hp
    exact ⟨by rw [this]; exact hs, by rw [this]; exact hp⟩

theorem regexC_lawful {L : RegexLib ρ} (hL : L.Law) (cfg : Cfg) (cap) : (regexC cfg cap L).Lawful where
  enc_ok := fun _ _ => ⟨_, rfl⟩
  round_trip := by
    rintro r b ⟨h1, h2⟩ h t
    simp only [regexC] at h ⊢
    rw [Rd.bind_of_ok ((stringC_lawful cfg cap).round_trip (L.asStr r) b h1 h t), h2]
    rfl
  framed := by
    refine Rd.Framed.bind (stringC_lawful cfg cap).framed fun s => ?_
    cases L.parse s with
    | none => exact Rd.Framed.fail _
    | some r => exact Rd.Framed.pure _
  sound := regexC_dec_yields hL cfg cap
  skip_agree := by
    intro s a r h
    obtain ⟨v, r', h1, h2⟩ := Rd.bind_ok.1 h
    have : r' = r := by
      cases hp : L.parse v with
      | none => rw [hp] at h2; simp at h2
      | some x => rw [hp] at h2; simp at h2; exact h2.2
    subst this
    exact (stringC_lawful cfg cap).skip_agree _ _ _ h1
  skip_framed := (stringC_lawful cfg cap).skip_framed
  skipS_eq := (stringC_lawful cfg cap).skipS_eq

/-! ### roaring -/

theorem mapErr_ok {m : Rd α} {f : Err → Err} {s r : Bytes} {a : α} :
    m.mapErr f s = .ok (a, r) ↔ m s = .ok (a, r) := by
  show (m s).mapErr f = _ ↔ _
  cases m s <;> simp [Res.mapErr]

theorem mapErr_framed {m : Rd α} (h : m.Framed) (f : Err → Err) : (m.mapErr f).Framed := by
  intro s a r hs
  obtain ⟨u, hu, h1, h2⟩ := h s a r (mapErr_ok.1 hs)
  refine ⟨u, hu, fun t => mapErr_ok.2 (h1 t), fun p q hp hq => ?_⟩
  obtain ⟨e, he⟩ := h2 p q hp hq
  exact ⟨f e, by show (m p).mapErr f = _; rw [he]; rfl⟩

theorem bitmapC_lawful {L : BitmapLib β} {valid : β → Prop} (hL : L.Law valid) : (bitmapC L valid).Lawful := by
  refine Codec.mirror_lawful (fun v hv => ?_) (fun v b hv he t => ?_) (mapErr_framed hL.framed _) ?_
  · obtain ⟨b, hb⟩ := hL.ser_ok v hv
    exact ⟨b, by rw [hb]⟩
  · have : L.ser v = .ok b := by
      cases hs : L.ser v <;> rw [hs] at he <;> simp at he
      rw [he]
    exact mapErr_ok.2 (hL.round_trip v b hv this t)
  · intro s a r h
    exact hL.sound s a r (mapErr_ok.1 h)

end Revision
