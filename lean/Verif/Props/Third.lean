import Verif.Proofs.Third
import Verif.Proofs.ProgramFaithful
import Verif.Props.Types

/-! # Properties of the impls for types of other crates: C75–C80 -/

namespace Revision

variable (cfg : Cfg)

theorem Codec.Lawful.comes_back {c : Codec α} (hc : c.Lawful) {v : α} (hv : c.valid v) :
    ∃ b, c.toVec v = .ok b ∧ c.fromSlice b = .ok v := by
  obtain ⟨b, hb⟩ := hc.enc_ok v hv
  refine ⟨b, hb, ?_⟩
  have := hc.round_trip v b hv hb []
  rw [List.append_nil] at this
  simp [Codec.fromSlice, this]

/-! ### C75: dates, times and durations of `chrono` -/

/-- C75: every date comes back. -/
theorem C75_date (d : NaiveDate) (h : d.Exists) :
    ∃ b, (naiveDateC cfg).toVec d = .ok b ∧ (naiveDateC cfg).fromSlice b = .ok d :=
  (naiveDateC_lawful cfg).comes_back ((naiveDateC_valid cfg d).2 h)

/-- C75: every duration comes back, also the negative ones, whose seconds and nanoseconds the library
rounds towards zero. -/
theorem C75_duration (d : TimeDelta) (h : d.Exists) :
    ∃ b, (timeDeltaC cfg).toVec d = .ok b ∧ (timeDeltaC cfg).fromSlice b = .ok d :=
  (timeDeltaC_lawful cfg).comes_back (timeDeltaC_valid cfg h)

/-- C75, partial: a time of day comes back if its leap second, if any, ends a minute.  Missing: times
with a leap second elsewhere, `C75_time_false`. -/
theorem C75_time_partial (t : NaiveTime) (h : t.Exists) (hr : t.Regular) :
    ∃ b, (naiveTimeC cfg).toVec t = .ok b ∧ (naiveTimeC cfg).fromSlice b = .ok t :=
  (naiveTimeC_lawful cfg).comes_back ((naiveTimeC_valid cfg h).2 hr)

/-- C75, partial: the same for points in time.  Missing: those of `C75_datetime_false`. -/
theorem C75_datetime_partial (t : DateTime) (h : t.Exists) (hr : t.Regular) :
    ∃ b, (dateTimeC cfg).toVec t = .ok b ∧ (dateTimeC cfg).fromSlice b = .ok t :=
  (dateTimeC_lawful cfg).comes_back ((dateTimeC_valid cfg t).2 ⟨h, hr⟩)

/-- C75 is false as stated: a time with a leap second elsewhere is always written without complaint and
never read back. -/
theorem C75_time_false (t : NaiveTime) (h : t.Exists) (hr : ¬ t.Regular) :
    ∃ b, (naiveTimeC cfg).toVec t = .ok b ∧ (naiveTimeC cfg).fromSlice b = .err .deserialize := by
  obtain ⟨b, hb⟩ := (time_base_lawful cfg).enc_ok t.parts ⟨trivial, trivial, trivial, trivial⟩
  refine ⟨b, ?_, ?_⟩
  · rw [← hb]; exact convC_enc rfl
  · have := (time_base_lawful cfg).round_trip t.parts b ⟨trivial, trivial, trivial, trivial⟩ hb []
    rw [List.append_nil] at this
    have hn : NaiveTime.make t.parts = none := by
      obtain ⟨h1, h2⟩ := h
      unfold NaiveTime.Regular at hr
      rw [NaiveTime.parts, NaiveTime.make_none]
      unfold isTimeOfDay
      simp only [BitVec.toNat_ofNat]
      omega
    have hd := convC_dec (parts := fun t : NaiveTime => .ok t.parts) (make := NaiveTime.make) this
    rw [hn] at hd
    unfold Codec.fromSlice
    rw [show (naiveTimeC cfg).dec b = .err .deserialize from hd]

/-- C75 is false as stated: the same for points in time. -/
theorem C75_datetime_false (t : DateTime) (hr : ¬ t.Regular) :
    ∃ b, (dateTimeC cfg).toVec t = .ok b ∧ (dateTimeC cfg).fromSlice b = .err .deserialize := by
  have hl := pairC_lawful (intC_lawful cfg .i64) (intC_lawful cfg .u32)
  obtain ⟨b, hb⟩ := hl.enc_ok (t.secs, t.nanos) ⟨trivial, trivial⟩
  refine ⟨b, ?_, ?_⟩
  · rw [← hb]; exact convC_enc rfl
  · have := hl.round_trip _ b ⟨trivial, trivial⟩ hb []
    rw [List.append_nil] at this
    have hn : DateTime.make (t.secs, t.nanos) = none := (DateTime.make_none _ _).2 fun h => hr h.2
    have hd := convC_dec (parts := fun t : DateTime => .ok (t.secs, t.nanos)) (make := DateTime.make) this
    rw [hn] at hd
    unfold Codec.fromSlice
    rw [show (dateTimeC cfg).dec b = .err .deserialize from hd]

/-- 2024-02-29; one nanosecond before zero; 23:59:60.5; and `with_nanosecond(1_333_333_333)` at 23:56:04,
chrono's own example. -/
example : (NaiveDate.mk 2024 2 29).Exists ∧ (TimeDelta.mk (-1) 999999999).Exists ∧
    (NaiveTime.mk 86399 1500000000).Exists ∧ (NaiveTime.mk 86399 1500000000).Regular ∧
    (NaiveTime.mk 86164 1333333333).Exists ∧ ¬ (NaiveTime.mk 86164 1333333333).Regular := by
  refine ⟨?_, ?_, ?_, ?_, ?_, ?_⟩
  · unfold NaiveDate.Exists isDate; decide
  all_goals simp [TimeDelta.Exists, TimeDelta.total, NaiveTime.Exists, NaiveTime.Regular]
  all_goals decide
example : (timeDeltaC .default).toVec ⟨-1, 999999999⟩ = .ok [1, 252, 254, 147, 53, 119] := by decide
example : (DateTime.mk 1700000000 1500000000).Exists ∧ ¬ (DateTime.mk 1700000000 1500000000).Regular := by
  unfold DateTime.Exists DateTime.Regular
  decide

example := C75_date .default ⟨2024, 2, 29⟩ (by unfold NaiveDate.Exists isDate; decide)
example := C75_duration .default ⟨-1, 999999999⟩ (by simp [TimeDelta.Exists, TimeDelta.total])
example := C75_time_partial .default ⟨86399, 1500000000⟩ (by simp [NaiveTime.Exists]) (by simp [NaiveTime.Regular])
example := C75_time_false .default ⟨86164, 1333333333⟩ (by simp [NaiveTime.Exists]) (by simp [NaiveTime.Regular])
example := C75_datetime_partial .default ⟨1700000000, 15⟩ (by unfold DateTime.Exists; decide)
  (by unfold DateTime.Regular; decide)
example := C75_datetime_false .default ⟨1700000000, 1500000000⟩ (by unfold DateTime.Regular; decide)

/-! ### C76: what is accepted as a date, time or duration -/

/-- C76: written numbers are read as the time of day they name, or refused with `Deserialize` if they
name none. -/
theorem C76_time (h m s n : BitVec 32) (rest : Bytes) :
    let bytes := encInt cfg .u32 h ++ (encInt cfg .u32 m ++ (encInt cfg .u32 s ++ encInt cfg .u32 n))
    (isTimeOfDay h.toNat m.toNat s.toNat n.toNat →
      ∃ t : NaiveTime, (naiveTimeC cfg).dec (bytes ++ rest) = .ok (t, rest) ∧
        t.secs.toNat = h.toNat * 3600 + m.toNat * 60 + s.toNat ∧ t.frac = n) ∧
    (¬ isTimeOfDay h.toNat m.toNat s.toNat n.toNat →
      (naiveTimeC cfg).dec (bytes ++ rest) = .err .deserialize) := by
  intro bytes
  have hd := (time_base_lawful cfg).round_trip (h, m, s, n) bytes ⟨trivial, trivial, trivial, trivial⟩ rfl rest
  have hd := convC_dec (parts := fun t : NaiveTime => .ok t.parts) (make := NaiveTime.make) hd
  constructor
  · intro ht
    refine ⟨_, by rw [(NaiveTime.make_iff h m s n _).2 ⟨ht, rfl⟩] at hd; exact hd, ?_, rfl⟩
    unfold isTimeOfDay at ht
    simp only [BitVec.toNat_ofNat]
    omega
  · intro ht
    rw [(NaiveTime.make_none h m s n).2 ht] at hd
    exact hd

/-- C76: the same for dates. -/
theorem C76_date (y m d : BitVec 32) (rest : Bytes) :
    let bytes := encInt cfg .i32 y ++ (encInt cfg .u32 m ++ encInt cfg .u32 d)
    (isDate y.toInt m.toNat d.toNat → (naiveDateC cfg).dec (bytes ++ rest) = .ok (⟨y, m, d⟩, rest)) ∧
    (¬ isDate y.toInt m.toNat d.toNat → (naiveDateC cfg).dec (bytes ++ rest) = .err .deserialize) := by
  intro bytes
  have hd := (pairC_lawful (intC_lawful cfg .i32) (pairC_lawful (intC_lawful cfg .u32)
    (intC_lawful cfg .u32))).round_trip (y, m, d) bytes ⟨trivial, trivial, trivial⟩ rfl rest
  have hd := convC_dec (parts := fun t : NaiveDate => .ok (t.year, t.month, t.day)) (make := NaiveDate.make) hd
  constructor
  · intro ht
    rw [(NaiveDate.make_iff y m d _).2 ⟨ht, rfl⟩] at hd
    exact hd
  · intro ht
    rw [(NaiveDate.make_none y m d).2 ht] at hd
    exact hd

/-- C76: the same for points in time: seconds within the calendar, nanoseconds below one second or in
the last second of a minute below two. -/
theorem C76_datetime (s : BitVec 64) (n : BitVec 32) (rest : Bytes) :
    let bytes := encInt cfg .i64 s ++ encInt cfg .u32 n
    ((DateTime.mk s n).Exists ∧ (DateTime.mk s n).Regular →
      (dateTimeC cfg).dec (bytes ++ rest) = .ok (⟨s, n⟩, rest)) ∧
    (¬ ((DateTime.mk s n).Exists ∧ (DateTime.mk s n).Regular) →
      (dateTimeC cfg).dec (bytes ++ rest) = .err .deserialize) := by
  intro bytes
  have hd := (pairC_lawful (intC_lawful cfg .i64) (intC_lawful cfg .u32)).round_trip (s, n) bytes
    ⟨trivial, trivial⟩ rfl rest
  have hd := convC_dec (parts := fun t : DateTime => .ok (t.secs, t.nanos)) (make := DateTime.make) hd
  constructor
  · intro ht
    rw [(DateTime.make_iff s n _).2 ⟨ht.1, ht.2, rfl⟩] at hd
    exact hd
  · intro ht
    rw [(DateTime.make_none s n).2 ht] at hd
    exact hd

/-- C76: the same for durations: nanoseconds from zero to one second, and at most `i64::MAX`
milliseconds either way. -/
theorem C76_duration (s : BitVec 64) (n : BitVec 32) (rest : Bytes) :
    let bytes := encInt cfg .i64 s ++ encInt cfg .i32 n
    ((TimeDelta.mk s n).Exists → (timeDeltaC cfg).dec (bytes ++ rest) = .ok (⟨s, n⟩, rest)) ∧
    (¬ (TimeDelta.mk s n).Exists → (timeDeltaC cfg).dec (bytes ++ rest) = .err .deserialize) := by
  intro bytes
  have hd := (pairC_lawful (intC_lawful cfg .i64) (intC_lawful cfg .i32)).round_trip (s, n) bytes
    ⟨trivial, trivial⟩ rfl rest
  have hd := convC_dec (parts := TimeDelta.parts) (make := TimeDelta.make) hd
  constructor
  · intro ht
    rw [(TimeDelta.make_iff s n _).2 ⟨ht, rfl⟩] at hd
    exact hd
  · intro ht
    rw [(TimeDelta.make_none s n).2 ht] at hd
    exact hd

/-- C76: and these numbers are what is written: seconds since the epoch and nanoseconds; year, month and
day; hour, minute, second and nanosecond; seconds rounded down and the nanoseconds above them. -/
theorem C76_written :
    (∀ t : DateTime, (dateTimeC cfg).toVec t = .ok (encInt cfg .i64 t.secs ++ encInt cfg .u32 t.nanos)) ∧
    (∀ d : NaiveDate, (naiveDateC cfg).toVec d =
      .ok (encInt cfg .i32 d.year ++ (encInt cfg .u32 d.month ++ encInt cfg .u32 d.day))) ∧
    (∀ (t : NaiveTime) (h m s : Nat), h < 24 → m < 60 → s < 60 → t.secs.toNat = h * 3600 + m * 60 + s →
      (naiveTimeC cfg).toVec t = .ok (encInt cfg .u32 (BitVec.ofNat 32 h) ++
        (encInt cfg .u32 (BitVec.ofNat 32 m) ++ (encInt cfg .u32 (BitVec.ofNat 32 s) ++ encInt cfg .u32 t.frac)))) ∧
    (∀ d : TimeDelta, d.Exists →
      (timeDeltaC cfg).toVec d = .ok (encInt cfg .i64 d.secs ++ encInt cfg .i32 d.nanos)) := by
  refine ⟨fun _ => rfl, fun _ => rfl, fun t h m s h1 h2 h3 h4 => ?_, fun d h => ?_⟩
  · have e1 : t.secs.toNat / 3600 = h := by omega
    have e2 : t.secs.toNat / 60 % 60 = m := by omega
    have e3 : t.secs.toNat % 60 = s := by omega
    have : (naiveTimeC cfg).enc t = _ := convC_enc (v := t) (p := t.parts) rfl
    show (naiveTimeC cfg).enc t = _
    rw [this, NaiveTime.parts, e1, e2, e3]
    rfl
  · show (timeDeltaC cfg).enc d = _
    rw [timeDeltaC, convC_enc (TimeDelta.parts_eq h)]
    rfl

/-- C76: none of the four decoders panics, whatever the bytes. -/
theorem C76_no_panic : (naiveTimeC cfg).PanicFree ∧ (naiveDateC cfg).PanicFree ∧
    (dateTimeC cfg).PanicFree ∧ (timeDeltaC cfg).PanicFree := by
  have h := intC_panicFree cfg
  exact ⟨convC_noPanic (pairC_panicFree (h _) (pairC_panicFree (h _) (pairC_panicFree (h _) (h _)))),
    convC_noPanic (pairC_panicFree (h _) (pairC_panicFree (h _) (h _))),
    convC_noPanic (pairC_panicFree (h _) (h _)), convC_noPanic (pairC_panicFree (h _) (h _))⟩

/-- 2023-02-29 is refused, 2024-02-29 read. -/
example : ¬ isDate 2023 2 29 ∧ isDate 2024 2 29 ∧ ¬ isDate 1900 2 29 ∧ isDate 2000 2 29 := by
  unfold isDate
  refine ⟨?_, ?_, ?_, ?_⟩ <;> decide
example : (naiveDateC .default).dec [251, 206, 15, 2, 29] = .err .deserialize ∧
    (naiveDateC .default).dec [251, 208, 15, 2, 29] = .ok (⟨2024, 2, 29⟩, []) := by decide

/-! ### C77: geometry -/

/-- C77: lines and collections of points come back bit for bit, NaNs included. -/
theorem C77_line (cap : Nat → Bool) (l : List Coord) (h : geoFits cap l) :
    ∃ b, (lineStringC cfg cap).toVec l = .ok b ∧ (lineStringC cfg cap).fromSlice b = .ok l ∧
      (multiPointC cfg cap).toVec l = .ok b ∧ (multiPointC cfg cap).fromSlice b = .ok l := by
  obtain ⟨b, h1, h2⟩ := (lineStringC_lawful cfg cap).comes_back
    (v := l) ⟨h.1, h.2, fun _ _ => ⟨trivial, trivial⟩⟩
  exact ⟨b, h1, h2, h1, h2⟩

/-- C77: so do collections of lines. -/
theorem C77_lines (cap capL : Nat → Bool) (l : List (List Coord)) (h : geoFits capL l)
    (hl : ∀ x ∈ l, geoFits cap x) :
    ∃ b, (multiLineStringC cfg cap capL).toVec l = .ok b ∧
      (multiLineStringC cfg cap capL).fromSlice b = .ok l :=
  (multiLineStringC_lawful cfg cap capL).comes_back
    ⟨h.1, h.2, fun x hx => ⟨(hl x hx).1, (hl x hx).2, fun _ _ => ⟨trivial, trivial⟩⟩⟩

/-- C77, partial: a polygon all of whose rings are closed comes back.  Missing: polygons with a ring
starting at a NaN, which the library cannot close, `C77_nan_false`. -/
theorem C77_polygon_partial (cap capL : Nat → Bool) (p : Polygon)
    (h1 : geoFits cap p.exterior) (h2 : geoFits capL p.interiors) (h3 : ∀ i ∈ p.interiors, geoFits cap i)
    (h4 : IsRing p.exterior) (h5 : ∀ i ∈ p.interiors, IsRing i) :
    ∃ b, (polygonC cfg cap capL).toVec p = .ok b ∧ (polygonC cfg cap capL).fromSlice b = .ok p := by
  have hv := (polygonC_valid cfg cap capL p).2 ⟨⟨h1, h2, h3⟩, h4, h5⟩
  obtain ⟨b, hb⟩ := convC_enc_ok (polygon_base_lawful cfg cap capL) hv
  refine ⟨b, hb, ?_⟩
  have := convC_round_trip (polygon_base_lawful cfg cap capL) hv hb []
  rw [List.append_nil] at this
  unfold Codec.fromSlice
  rw [show (polygonC cfg cap capL).dec b = .ok (p, []) from this]

/-- C77: every polygon built from rings starting at proper coordinates is one of those. -/
theorem C77_polygon_reachable (e : List Coord) (is : List (List Coord))
    (he : ∀ a, e.head? = some a → ¬ a.hasNaN) (hi : ∀ i ∈ is, ∀ a, i.head? = some a → ¬ a.hasNaN) :
    IsRing (Polygon.new e is).exterior ∧ ∀ i ∈ (Polygon.new e is).interiors, IsRing i := by
  refine ⟨closeRing_isRing he, fun i h => ?_⟩
  obtain ⟨x, hx, rfl⟩ := List.mem_map.1 h
  exact closeRing_isRing (hi x hx)

/-- C77 is false as stated: a polygon whose exterior starts at a NaN gains a coordinate each time it is
written and read. -/
theorem C77_nan_false (cap capL : Nat → Bool) (a : Coord) (l : List Coord) (is : List (List Coord))
    (ha : a.hasNaN) (h1 : geoFits cap (a :: l)) (h2 : geoFits capL is) (h3 : ∀ i ∈ is, geoFits cap i) :
    ∃ b q, (polygonC cfg cap capL).toVec ⟨a :: l, is⟩ = .ok b ∧
      (polygonC cfg cap capL).fromSlice b = .ok q ∧ q.exterior = (a :: l) ++ [a] := by
  have ht : ∀ c, coordC.valid c := fun _ => ⟨trivial, trivial⟩
  have hv : (pairC (lineStringC cfg cap) (vecC cfg capL (lineStringC cfg cap))).valid (a :: l, is) :=
    ⟨⟨h1.1, h1.2, fun c _ => ht c⟩, h2.1, h2.2, fun i hi => ⟨(h3 i hi).1, (h3 i hi).2, fun c _ => ht c⟩⟩
  have hl := polygon_base_lawful cfg cap capL
  obtain ⟨b, hb⟩ := hl.enc_ok _ hv
  have := hl.round_trip _ b hv hb []
  rw [List.append_nil] at this
  have hd := convC_dec (parts := fun p : Polygon => .ok (p.exterior, p.interiors))
    (make := fun p => some (Polygon.new p.1 p.2)) this
  refine ⟨b, Polygon.new (a :: l) is, ?_, ?_, ?_⟩
  · rw [← hb]; exact convC_enc rfl
  · unfold Codec.fromSlice
    rw [show (polygonC cfg cap capL).dec b = .ok (Polygon.new (a :: l) is, []) from hd]
  · show closeRing (a :: l) = _
    have : ringClosed (a :: l) ≠ true := by
      rw [Ne, ringClosed_iff]
      intro h
      have := h a _ rfl (List.getLast?_eq_some_getLast (List.cons_ne_nil a l))
      rcases ha with ha | ha
      · exact this.1.1 ha
      · exact this.2.1 ha
    unfold closeRing
    rw [if_neg this]
    rfl

/-- The bit pattern of a quiet NaN. -/
theorem quietNaN : Coord.hasNaN (0x7ff8000000000000#64, 0#64) := Or.inl (by simp only [FloatTy.IsNaN]; decide)

/-- A triangle. -/
theorem triangle : IsRing [(0#64, 0#64), (0x3ff0000000000000#64, 0#64), (0#64, 0x8000000000000000#64)] := by
  intro a b h1 h2
  simp at h1 h2
  subst h1 h2
  simp only [F64.Same, FloatTy.IsNaN]
  decide

example := C77_polygon_partial .default (fun _ => true) (fun _ => true)
  ⟨[(0#64, 0#64), (0x3ff0000000000000#64, 0#64), (0#64, 0x8000000000000000#64)],
    [[(0#64, 0#64), (0x3ff0000000000000#64, 0#64), (0#64, 0x8000000000000000#64)]]⟩
  ⟨by decide, fun _ => rfl⟩ ⟨by decide, fun _ => rfl⟩
  (fun _ h => by rw [List.mem_singleton.1 h]; exact ⟨by decide, fun _ => rfl⟩) triangle
  (fun _ h => by rw [List.mem_singleton.1 h]; exact triangle)

example := C77_nan_false .default (fun _ => true) (fun _ => true) _ [(0#64, 0#64)] [] quietNaN
  ⟨by decide, fun _ => rfl⟩ ⟨by decide, fun h => absurd rfl h⟩ (fun _ h => nomatch h)

/-- C77, partial: a list of such polygons comes back, with anything after it.  Missing: as for one polygon. -/
theorem C77_polygons_partial (cap capL capP : Nat → Bool) (l : List Polygon) (h0 : geoFits capP l)
    (h : ∀ p ∈ l, geoFits cap p.exterior ∧ geoFits capL p.interiors ∧ (∀ i ∈ p.interiors, geoFits cap i) ∧
      IsRing p.exterior ∧ ∀ i ∈ p.interiors, IsRing i) :
    ∃ b, (multiPolygonC cfg cap capL capP).toVec l = .ok b ∧
      ∀ t, (multiPolygonC cfg cap capL capP).dec (b ++ t) = .ok (l, t) ∧
        (multiPolygonC cfg cap capL capP).skip (b ++ t) = .ok ((), t) := by
  have hv : ∀ p ∈ l, (polygonC cfg cap capL).valid p := fun p hp =>
    have ⟨h1, h2, h3, h4, h5⟩ := h p hp
    (polygonC_valid cfg cap capL p).2 ⟨⟨h1, h2, h3⟩, h4, h5⟩
  obtain ⟨b, hb⟩ := encList_ok fun p hp => convC_enc_ok (polygon_base_lawful cfg cap capL) (hv p hp)
  have hd : ∀ t, (multiPolygonC cfg cap capL capP).dec (encLen cfg l.length ++ b ++ t) = .ok (l, t) := by
    intro t
    show (vecC cfg capP (polygonC cfg cap capL)).dec _ = _
    simp only [vecC]
    rw [List.append_assoc, Rd.bind_of_ok (readLen_encLen cfg h0.1 _)]
    by_cases hl : l = []
    · subst hl
      simp [encList] at hb
      subst hb
      simp
    · rw [if_neg (by simpa using hl), h0.2 hl]
      exact Rd.readN_append (fun p hp x t hx =>
        convC_round_trip (polygon_base_lawful cfg cap capL) (hv p hp) hx t) hb t
  refine ⟨encLen cfg l.length ++ b, ?_, fun t => ⟨hd t, ?_⟩⟩
  · show (vecC cfg capP (polygonC cfg cap capL)).enc l = _
    have hb' : encList (polygonC cfg cap capL).enc l = .ok b := hb
    simp [vecC, hb']
  · show ((multiPolygonC cfg cap capL capP).dec.discard) _ = _
    rw [Rd.discard, Rd.bind_of_ok (hd t)]; rfl

/-- C77: wherever a polygon decodes, skipping and checking stop where decoding does, and no input makes
the decoder panic unless the allocator refuses. -/
theorem C77_skip (cap capL : Nat → Bool) (s r : Bytes) (p : Polygon)
    (h : (polygonC cfg cap capL).dec s = .ok (p, r)) :
    (polygonC cfg cap capL).skip s = .ok ((), r) ∧ (polygonC cfg cap capL).skipS s = .ok ((), r) ∧
    (polygonC cfg cap capL).check s = .ok ((), r) := by
  have : (polygonC cfg cap capL).dec.discard s = .ok ((), r) := by
    rw [Rd.discard, Rd.bind_of_ok h]; rfl
  exact ⟨this, this, this⟩

/-! ### C78: decimals -/

/-- C78: a vector of decimals is written in bulk as it would be element by element. -/
theorem C78_same_bytes (cap : Nat → Bool) (D : DecimalLib δ) (l : List δ) (h : l.length * 16 < 2 ^ 64) :
    (decimalsC cfg cap D).toVec l = (vecC cfg cap (decimalC D)).toVec l := by
  show (if l.length = 0 then _ else _) = (encList (decimalC D).enc l >>= _)
  rw [decimalC_enc]
  by_cases h0 : l.length = 0
  · rw [if_pos h0, List.length_eq_zero_iff.1 h0]
    simp [Bind.bind, Res.bind, Pure.pure]
  · rw [if_neg h0, if_pos h]
    rfl

/-- C78: the two readers of a vector of decimals are the same function. -/
theorem C78_same_reader (cap : Nat → Bool) (D : DecimalLib δ) :
    (decimalsC cfg cap D).dec = (vecC cfg cap (decimalC D)).dec := rfl

/-- C78: a vector of decimals comes back. -/
theorem C78_round_trip (cap : Nat → Bool) (D : DecimalLib δ) (hD : D.Law) (l : List δ)
    (h : l.length * 16 < 2 ^ 64) (hc : l ≠ [] → cap l.length = true) (hl : ∀ v ∈ l, D.de (D.ser v) = v) :
    ∃ b, (decimalsC cfg cap D).toVec l = .ok b ∧ (decimalsC cfg cap D).fromSlice b = .ok l := by
  obtain ⟨b, h1, h2⟩ := (vecC_lawful cfg cap (decimalC_lawful hD)).comes_back (v := l)
    ⟨by omega, hc, hl⟩
  exact ⟨b, by rw [C78_same_bytes cfg cap D l h]; exact h1, h2⟩

/-- C78: a vector too large for its byte count to fit `usize` is refused before anything is written. -/
theorem C78_overflow (cap : Nat → Bool) (D : DecimalLib δ) (l : List δ) (h : 2 ^ 64 ≤ l.length * 16) :
    (decimalsC cfg cap D).toVec l = .err .integerOverflow := by
  show (if l.length = 0 then _ else if _ then _ else _) = _
  rw [if_neg (by omega), if_neg (by omega)]

/-- C78: the bulk skip follows the decoder (the allocator never grants more than `isize::MAX` bytes). -/
theorem C78_skip (cap : Nat → Bool) (D : DecimalLib δ) (hcap : ∀ n, cap n = true → n * 16 < 2 ^ 63)
    (s r : Bytes) (l : List δ) (h : (decimalsC cfg cap D).dec s = .ok (l, r)) :
    (decimalsC cfg cap D).skip s = .ok ((), r) ∧ (decimalsC cfg cap D).skipS s = .ok ((), r) := by
  obtain ⟨n, r1, h1, h2⟩ := Rd.bind_ok.1 h
  have key : ∀ u, r1 = u ++ r → u.length = n * 16 → n * 16 < 2 ^ 64 →
      (decimalsC cfg cap D).skip s = .ok ((), r) ∧ (decimalsC cfg cap D).skipS s = .ok ((), r) := by
    intro u hu hl hn
    have e1 : Rd.consume (n * 16) r1 = .ok ((), r) := by
      show (if n * 16 > r1.length then _ else _) = _
      rw [hu, ← hl, if_neg (by simp)]
      simp
    have e2 : Rd.advance (n * 16) r1 = .ok ((), r) := by rw [← Rd.consume_eq]; exact e1
    constructor
    · show (readLen cfg >>= _) s = _
      rw [Rd.bind_of_ok h1, if_pos hn, e2]
    · show (readLen cfg >>= _) s = _
      rw [Rd.bind_of_ok h1, if_pos hn, e1]
  by_cases h0 : n = 0
  · rw [if_pos h0] at h2
    simp at h2
    exact key [] (by simp [h2.2]) (by simp [h0]) (by omega)
  · rw [if_neg h0] at h2
    cases hc : cap n with
    | false => rw [hc] at h2; simp [Rd.alloc, Rd.bind_run] at h2
    | true =>
      rw [hc, Rd.alloc_true, Rd.pure_bind] at h2
      obtain ⟨u, hu, hl⟩ := readN_decimal_length n h2
      exact key u hu hl (by have := hcap n hc; omega)

/-- `rust_decimal` masks the unused flag bits when reading. -/
def demoDecimal : DecimalLib (BitVec 128) := ⟨id, fun b => b &&& ~~~0xff#128⟩

theorem demoDecimal_law : demoDecimal.Law := by
  intro b
  simp [demoDecimal, BitVec.and_assoc]
example : (decimalsC .default (fun n => decide (n ≤ 2 ^ 40)) demoDecimal).dec
    [1, 255, 1, 0, 0, 0, 0, 0, 0, 0, 0, 0, 0, 0, 0, 0, 0, 9] = .ok ([256#128], [9]) := by decide +kernel
example := C78_round_trip .default (fun _ => true) demoDecimal demoDecimal_law [256#128, 512#128] (by decide)
  (fun _ => rfl) (by simp [demoDecimal])
example := C78_skip .default (fun n => decide (n ≤ 2 ^ 40)) demoDecimal
  (fun n h => by have := of_decide_eq_true h; omega)
  [1, 255, 1, 0, 0, 0, 0, 0, 0, 0, 0, 0, 0, 0, 0, 0, 0, 9] [9] [256#128] (by decide +kernel)
example := C78_same_bytes .default (fun _ => true) demoDecimal [256#128, 511#128] (by decide)
example (l : List (BitVec 128)) (h : l.length = 2 ^ 60) := C78_overflow .default (fun _ => true) demoDecimal l
  (by omega)

/-! ### C79: regular expressions and bitmaps -/

/-- C79: what a decoded expression prints is the text that was stored; text the library cannot parse is
refused with `Deserialize`. -/
theorem C79_pattern (cap : Nat → Bool) (R : RegexLib ρ) (hR : R.Law) (p : String)
    (hp : (stringC cfg cap).valid p) (rest : Bytes) :
    match R.parse p with
    | some r => (regexC cfg cap R).dec (encBytes cfg (strBytes p) ++ rest) = .ok (r, rest) ∧ R.asStr r = p
    | none => (regexC cfg cap R).dec (encBytes cfg (strBytes p) ++ rest) = .err .deserialize := by
  have hd := (stringC_lawful cfg cap).round_trip p _ hp rfl rest
  cases h : R.parse p with
  | none =>
    simp only
    show (_ >>= _ : Rd ρ) _ = _
    rw [Rd.bind_of_ok hd, h]
    rfl
  | some r =>
    refine ⟨?_, hR p r h⟩
    show (_ >>= _ : Rd ρ) _ = _
    rw [Rd.bind_of_ok hd, h]
    rfl

/-- C79, partial: an expression that is what its text parses to comes back.  Missing: expressions built
with options, `C79_options_false`. -/
theorem C79_round_trip_partial (cap : Nat → Bool) (R : RegexLib ρ) (hR : R.Law) (r : ρ)
    (h1 : (stringC cfg cap).valid (R.asStr r)) (h2 : R.parse (R.asStr r) = some r) :
    ∃ b, (regexC cfg cap R).toVec r = .ok b ∧ (regexC cfg cap R).fromSlice b = .ok r :=
  (regexC_lawful hR cfg cap).comes_back ⟨h1, h2⟩

/-- Expressions with one option of `RegexBuilder`, case insensitivity; parsing gives the default. -/
def demoRegex : RegexLib (String × Bool) := ⟨Prod.fst, fun s => some (s, false)⟩

theorem demoRegex_law : demoRegex.Law := fun s r h => by
  simp only [demoRegex, Option.some.injEq] at h
  subst h
  rfl

/-- C79 is false as stated: the options an expression was built with are not written, so a
case-insensitive expression comes back case-sensitive. -/
theorem C79_options_false (cap : Nat → Bool) (p : String) (hp : (stringC cfg cap).valid p) :
    demoRegex.Law ∧
    ∃ b, (regexC cfg cap demoRegex).toVec (p, true) = .ok b ∧
      (regexC cfg cap demoRegex).fromSlice b = .ok (p, false) := by
  refine ⟨demoRegex_law, encBytes cfg (strBytes p), rfl, ?_⟩
  have := (C79_pattern cfg cap demoRegex demoRegex_law p hp []).1
  rw [List.append_nil] at this
  unfold Codec.fromSlice
  rw [this]

example : (stringC .default (fun n => decide (n ≤ 2 ^ 40))).valid "a+" := ⟨by decide, fun _ => by decide⟩
example := C79_options_false .default (fun _ => true) "a+" ⟨by decide, fun _ => rfl⟩
example := C79_round_trip_partial .default (fun _ => true) demoRegex demoRegex_law ("a+", false)
  ⟨by decide, fun _ => rfl⟩ rfl
example := C79_pattern .default (fun _ => true) demoRegex demoRegex_law "a+" ⟨by decide, fun _ => rfl⟩ [9]

/-- C79: bitmaps come back if the library's own format does, and every failure of the library is
reported as `Serialize` or `Deserialize`. -/
theorem C79_bitmap (B : BitmapLib β) (valid : β → Prop) (hB : B.Law valid) :
    (∀ v, valid v → ∃ b, (bitmapC B valid).toVec v = .ok b ∧ (bitmapC B valid).fromSlice b = .ok v) ∧
    (∀ v e, (bitmapC B valid).toVec v = .err e → e = .serialize) ∧
    (∀ s e, (bitmapC B valid).fromSlice s = .err e → e = .deserialize) := by
  refine ⟨fun v hv => (bitmapC_lawful hB).comes_back hv, fun v e h => ?_, fun s e h => ?_⟩
  · have h : (match B.ser v with | .err _ => Res.err .serialize | x => x) = .err e := h
    cases hs : B.ser v with
    | ok b => rw [hs] at h; simp at h
    | err x => rw [hs] at h; simpa using h.symm
    | panic => rw [hs] at h; simp at h
  · unfold Codec.fromSlice at h
    have hd : (bitmapC B valid).dec s = (B.de s).mapErr fun _ => .deserialize := rfl
    rw [hd] at h
    cases hs : B.de s with
    | ok x => rw [hs] at h; simp [Res.mapErr] at h
    | err x => rw [hs] at h; simpa [Res.mapErr] using h.symm
    | panic => rw [hs] at h; simp [Res.mapErr] at h

/-- A library format for numbers below 256 meets the hypotheses. -/
theorem byteBitmap_law : BitmapLib.Law (β := UInt8) ⟨fun v => .ok [v], Rd.readByte⟩ (fun _ => True) where
  ser_ok := fun v _ => ⟨_, rfl⟩
  round_trip := by
    intro v b _ h t
    simp only [Res.ok.injEq] at h
    subst h
    rfl
  framed := Rd.Framed.readByte
  sound := fun _ _ _ _ => trivial

example := C79_bitmap _ _ byteBitmap_law

/-! ### C80: these types inside containers -/

/-- C80: the impls of all these types keep the contract between writing, reading, skipping and checking,
so everything proved of containers (C05–C13, C26–C28, C35–C44) holds of containers of them. -/
theorem C80_lawful (cap : Nat → Bool) (D : DecimalLib δ) (R : RegexLib ρ) (B : BitmapLib β)
    (valid : β → Prop) (hD : D.Law) (hR : R.Law) (hB : B.Law valid) (i : Third) :
    (i.codec cfg cap D R B valid).Lawful ∧ (i.codec cfg cap D R B valid).CheckLaw := by
  have hl : (i.codec cfg cap D R B valid).Lawful := by
    cases i with
    | dateTime => exact dateTimeC_lawful cfg
    | naiveDate => exact naiveDateC_lawful cfg
    | naiveTime => exact naiveTimeC_lawful cfg
    | timeDelta => exact timeDeltaC_lawful cfg
    | coord => exact coordC_lawful
    | lineString => exact lineStringC_lawful cfg cap
    | multiLineString => exact multiLineStringC_lawful cfg cap cap
    | decimal => exact decimalC_lawful hD
    | regex => exact regexC_lawful hR cfg cap
    | bitmap => exact bitmapC_lawful hB
  refine ⟨hl, ?_⟩
  cases i with
  | decimal =>
    refine ⟨(readLE_framed _ _).discard, ?_, ?_⟩
    · exact Rd.Agree.bind_pure_left (Rd.Agree.refl _).discard
    · intro s r h
      obtain ⟨x, r', h1, h2⟩ := Rd.bind_ok.1 h
      have : r' = r := by simp at h2; exact h2
      subst this
      exact Or.inl ⟨_, by show (readLE 128 16 >>= _) s = _; rw [Rd.bind_of_ok h1]; rfl⟩
  | _ => exact checkLaw_of_discard rfl hl.framed

/-- C80: a value of any supported type built over these types comes back. -/
theorem C80_round_trip (cap : Nat → Bool) (D : DecimalLib δ) (R : RegexLib ρ) (B : BitmapLib β)
    (valid : β → Prop) (hD : D.Law) (hR : R.Law) (hB : B.Law valid) (caps cmp eq)
    (hcap : ∀ t m n, m ≤ n → caps t n = true → caps t m = true) (htr : ∀ t, Std.TransCmp (cmp t))
    (t : Ty Third) (v : t.denote (Third.X δ ρ β))
    (hw : t.WF (Third.env cfg D R B valid cap caps cmp eq) v)
    (hf : t.Fits (Third.env cfg D R B valid cap caps cmp eq) v) :
    ∃ b, (t.codec cfg (Third.env cfg D R B valid cap caps cmp eq)).toVec v = .ok b ∧
      (t.codec cfg (Third.env cfg D R B valid cap caps cmp eq)).fromSlice b = .ok v :=
  C05_round_trip cfg (Third.env cfg D R B valid cap caps cmp eq)
    ⟨fun i => (C80_lawful cfg cap D R B valid hD hR hB i).1, hcap, htr⟩ t v hw hf

/-- A vector of dates is a value of the universe. -/
theorem dates_wf (D : DecimalLib δ) (R : RegexLib ρ) (B : BitmapLib β) (valid : β → Prop) :
    (Ty.vec (.ext Third.naiveDate)).WF (Third.env .default D R B valid (fun _ => true) (fun _ _ => true)
      (fun _ _ _ => .eq) (fun _ _ _ => false))
      ([NaiveDate.mk 2024 2 29, NaiveDate.mk 1970 1 1] : List NaiveDate) := by
  intro (d : NaiveDate) hd
  refine (naiveDateC_valid _ _).2 ?_
  rcases List.mem_cons.1 hd with rfl | hd
  · unfold NaiveDate.Exists isDate; decide
  · rw [List.mem_singleton.1 hd]
    unfold NaiveDate.Exists isDate; decide

example := C80_round_trip .default (fun _ => true) demoDecimal demoRegex ⟨fun v => .ok [v], Rd.readByte⟩ (fun _ => True)
  demoDecimal_law demoRegex_law byteBitmap_law (fun _ _ => true) (fun _ _ _ => .eq) (fun _ _ _ => false)
  (fun _ _ _ _ _ => rfl) (fun _ => { eq_swap := rfl, isLE_trans := fun _ _ => rfl }) (.vec (.ext .naiveDate))
  [NaiveDate.mk 2024 2 29, NaiveDate.mk 1970 1 1] (dates_wf demoDecimal demoRegex _ _)
  (by simp only [Ty.Fits, Third.env, Ty.elemBytes]; exact ⟨by decide, by simp⟩)

example := C80_lawful .default (fun _ => true) demoDecimal demoRegex _ _ demoDecimal_law demoRegex_law byteBitmap_law
  .dateTime

end Revision
