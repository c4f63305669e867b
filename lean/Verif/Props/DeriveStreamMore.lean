import Verif.Props.DeriveStream

/-! # C67, C88: going through structs field by field, whatever their encoding -/

namespace Revision

variable {V : Type}

/-- The walker after the fields of a plan. -/
theorem stream_next {cfg : Cfg} {h : List Entry} {fs : List (FieldDecl V)} {k : Nat} (h2 : k ≤ h.length)
    {new : List V} {s b t : Bytes} (hs : FieldStream k (aliveFields fs h.length) new s)
    (hw : walkStruct cfg h fs b = .ok (.wire k, s ++ t))
    (hf : ∀ f ∈ fs, f.existsAt k = true → f.optimisedC.Faithful)
    (plan : List Bool) (f : FieldDecl V) (v : V)
    (hfi : (aliveFields fs h.length)[plan.length]? = some f) (hvi : new[plan.length]? = some v) :
    (f.existsAt k = true → ∃ x u, f.optimisedC.valid v ∧ f.optimisedC.enc v = .ok x ∧
      (walkStruct cfg h fs >>= passFields 0 (aliveFields fs h.length) plan) b =
        .ok ((planSees plan new, .wire k), x ++ u)) ∧
    (f.existsAt k = false → ∃ u,
      (walkStruct cfg h fs >>= passFields 0 (aliveFields fs h.length) plan) b =
        .ok ((planSees plan new, .wire k), u)) := by
  have hpn := (List.getElem?_eq_some_iff.1 hvi).1
  obtain ⟨s', hs', hpass⟩ := hs.pass h2 (fun f hfm => (List.mem_filter.1 hfm).2)
    (fun f hfm ha => hf f (List.mem_filter.1 hfm).1 ha) t 0 plan (by omega)
  obtain ⟨hfl, rfl⟩ := List.getElem?_eq_some_iff.1 hfi
  obtain ⟨hvl, rfl⟩ := List.getElem?_eq_some_iff.1 hvi
  rw [List.drop_eq_getElem_cons hfl, List.drop_eq_getElem_cons hvl] at hs'
  constructor
  · intro ha
    cases hs' with
    | absent hc => rw [ha] at hc; cases hc
    | @stored _ _ _ _ x s'' _ hvv hx hs'' =>
      exact ⟨x, s'' ++ t, hvv, hx, by rw [Rd.bind_of_ok hw, hpass, List.append_assoc]⟩
  · intro ha
    exact ⟨_, by rw [Rd.bind_of_ok hw, hpass]⟩

/-! ### Optimised sequential data -/

section
variable (cfg : Cfg) (h : List Entry) (hh : ValidHistory h) (fs : List (FieldDecl V))
    (hec : EndsConverted fs) (k : Nat) (h1 : 1 ≤ k) (h2 : k ≤ h.length)
    (ho : (lastEntry (h.take k)).optimised = true) (hi : (lastEntry (h.take k)).indexedStruct = false)
    (hc : NotConverted h fs k)
    (hf : ∀ f ∈ fs, f.existsAt k = true → (f.wire (lastEntry (h.take k))).Faithful)
    (vs : List V) (b t : Bytes)
    (hv : (structC cfg (h.take k) (fieldsAsOf k fs)).valid vs)
    (hb : (structC cfg (h.take k) (fieldsAsOf k fs)).enc vs = .ok b)
    (new : List V) (hm : migrate k h.length fs vs = .ok new)
    (plan : List Bool) (f : FieldDecl V) (v : V)
    (hfi : (aliveFields fs h.length)[plan.length]? = some f) (hvi : new[plan.length]? = some v)
include hh hec h1 h2 ho hi hc hf hv hb hm hfi hvi

/-- At the next field, `walk_<field>` hands over to the walker of the field's type, which stands at the
bytes of the field as written; for a field the data does not have it is an error. -/
theorem C67_walk_field (inner : Rd ω) :
    (f.existsAt k = true → ∃ x u, f.optimisedC.enc v = .ok x ∧
      (do let w ← walkStruct cfg h fs
          let (_, w) ← passFields 0 (aliveFields fs h.length) plan w
          w.walkField inner f) (b ++ t) = inner (x ++ u) ∧
      (do let w ← walkStruct cfg h fs
          let (seen, _) ← passFields 0 (aliveFields fs h.length) plan w
          pure seen) (b ++ t) = .ok (planSees plan new, x ++ u)) ∧
    (f.existsAt k = false →
      (do let w ← walkStruct cfg h fs
          let (_, w) ← passFields 0 (aliveFields fs h.length) plan w
          w.walkField inner f) (b ++ t) = .err .conversion) := by
  obtain ⟨s, hs, hw⟩ := walkStruct_stream cfg h hh fs hec k h1 h2 ho hi hc vs b t hv hb new hm
  obtain ⟨n1, n2⟩ := stream_next h2 hs hw (fun f hfm ha => by
    have := hf f hfm ha
    simpa [FieldDecl.wire, ho] using this) plan f v hfi hvi
  have hpr := present_eq h2 (List.mem_filter.1 (List.mem_of_getElem? hfi)).2
  constructor
  · intro ha
    obtain ⟨x, u, _, hx, hp⟩ := n1 ha
    refine ⟨x, u, hx, ?_, ?_⟩
    · rw [← Rd.bind_assoc, Rd.bind_of_ok hp]
      simp only [StructRepr.walkField, hpr, ha, if_true]
    · rw [← Rd.bind_assoc, Rd.bind_of_ok hp]; rfl
  · intro ha
    obtain ⟨u, hp⟩ := n2 ha
    rw [← Rd.bind_assoc, Rd.bind_of_ok hp]
    simp only [StructRepr.walkField, hpr, ha]
    rfl

/-- At the next field, the view of an `indexed_*` field the data has is its bytes as written.

Missing from the full property: fields the data does not have (`C67_view_false`). -/
theorem C67_view_partial (hix : f.isIndexed = true) (ha : f.existsAt k = true) :
    ∃ x u, f.indexed.enc v = .ok x ∧
      (do let w ← walkStruct cfg h fs
          let (_, w) ← passFields 0 (aliveFields fs h.length) plan w
          w.viewField plan.length f) (b ++ t) = .ok (x, u) ∧
      (do let w ← walkStruct cfg h fs
          let (seen, _) ← passFields 0 (aliveFields fs h.length) plan w
          pure seen) (b ++ t) = .ok (planSees plan new, x ++ u) := by
  obtain ⟨s, hs, hw⟩ := walkStruct_stream cfg h hh fs hec k h1 h2 ho hi hc vs b t hv hb new hm
  have hf' : ∀ f ∈ fs, f.existsAt k = true → f.optimisedC.Faithful := fun f hfm ha => by
    have := hf f hfm ha
    simpa [FieldDecl.wire, ho] using this
  obtain ⟨n1, -⟩ := stream_next h2 hs hw hf' plan f v hfi hvi
  obtain ⟨x, u, hvv, hx, hp⟩ := n1 ha
  have hff := hf' f (List.mem_filter.1 (List.mem_of_getElem? hfi)).1 ha
  simp only [FieldDecl.optimisedC, hix, if_true] at hff hvv hx
  refine ⟨x, u, hx, ?_, ?_⟩
  · rw [← Rd.bind_assoc, Rd.bind_of_ok hp]
    exact consumed_run (hff.skip_after _ _ hvv hx _)
  · rw [← Rd.bind_assoc, Rd.bind_of_ok hp]; rfl

end

/-! ### Legacy data -/

theorem walkStruct_legacy_stream (cfg : Cfg) (h : List Entry) (hh : ValidHistory h) (fs : List (FieldDecl V))
    (hec : EndsConverted fs) (k : Nat) (h1 : 1 ≤ k) (h2 : k ≤ h.length)
    (ho : (lastEntry (h.take k)).optimised = false)
    (hc : NotConverted h fs k) (hp : ∀ f ∈ fs, f.existsAt k = true → f.Plain) (vs : List V) (b t : Bytes)
    (hv : (structC cfg (h.take k) (fieldsAsOf k fs)).valid vs)
    (hb : (structC cfg (h.take k) (fieldsAsOf k fs)).enc vs = .ok b)
    (new : List V) (hm : migrate k h.length fs vs = .ok new) :
    ∃ s, FieldStream k (aliveFields fs h.length) new s ∧ walkStruct cfg h fs (b ++ t) = .ok (.wire k, s ++ t) := by
  have hfit := hh.fits
  have hk := hec.noneRemoved hc h2 (by omega)
  have hmem : lastEntry (h.take k) ∈ h := List.mem_of_getElem? (hh.lastEntry_take h1 h2)
  have hrev : (lastEntry (h.take k)).revision = k := by
    have := hh.revision_get (hh.lastEntry_take h1 h2)
    omega
  have hkt := (hh.take h1 h2).latest_eq
  rw [List.length_take, Nat.min_eq_left h2] at hkt
  unfold structC at hv hb
  simp only [hkt] at hv hb
  generalize lastEntry (h.take k) = e at *
  subst hrev
  obtain ⟨body, hbody, hb'⟩ := Res.bind_eq_ok.1 hb
  cases hb'
  rw [serializeStructBody_asOf e (by omega)] at hbody
  rw [validFields_asOf (by omega), validFields_iff] at hv
  obtain ⟨bs, hbs⟩ := serializeStructBody_ok e fs vs body hv.length_eq hbody
  rw [serializeStructBody_encodes e fs vs bs hbs] at hbody
  unfold structLayout at hbody
  simp only [ho, Bool.false_eq_true, if_false, false_and] at hbody
  cases hbody
  have hwire : ∀ f ∈ aliveFields fs e.revision, f.wire e = f.optimisedC := by
    intro f hfm
    obtain ⟨hfm, ha⟩ := List.mem_filter.1 hfm
    obtain ⟨p1, p2, p3⟩ := hp f hfm ha
    simp [FieldDecl.wire, ho, FieldDecl.legacyC, FieldDecl.optimisedC, p1, p2, p3]
  have hv' := hv.congr hwire
  have hbs' := hbs.congr hwire
  refine ⟨bs.flatten, .of_migrate fs vs new bs hk hv' hbs' hm, ?_⟩
  have hw := walkStruct_direct cfg hh hmem hc (fs := fs) (readU16_encU16 cfg (by omega) (bs.flatten ++ t))
  simp only [ho, Bool.false_eq_true, if_false] at hw
  rw [List.append_assoc]
  exact hw

section
variable (cfg : Cfg) (h : List Entry) (hh : ValidHistory h) (fs : List (FieldDecl V))
    (hec : EndsConverted fs) (k : Nat) (h1 : 1 ≤ k) (h2 : k ≤ h.length)
    (ho : (lastEntry (h.take k)).optimised = false)
    (hc : NotConverted h fs k) (hp : ∀ f ∈ fs, f.existsAt k = true → f.Plain ∧ f.plain.Faithful)
    (vs : List V) (b t : Bytes)
    (hv : (structC cfg (h.take k) (fieldsAsOf k fs)).valid vs)
    (hb : (structC cfg (h.take k) (fieldsAsOf k fs)).enc vs = .ok b)
    (new : List V) (hm : migrate k h.length fs vs = .ok new)
include hh hec h1 h2 ho hc hp hv hb hm

/-- C88: data written at a legacy revision is gone through in order, each field being decoded or skipped
at will: the decodes give the fields of the current revision, and the reader ends behind the record.

Missing from the full property: fields with `fixed`, `specialised` or `indexed_*`
(`C57_fixed_false`, `C57_legacy_indexed_false`). -/
theorem C88_legacy_plans_partial (plan : List Bool) (hpl : plan.length = new.length) :
    (do let w ← walkStruct cfg h fs
        let (seen, _) ← passFields 0 (aliveFields fs h.length) plan w
        pure seen) (b ++ t) = .ok (planSees plan new, t) := by
  obtain ⟨s, hs, hw⟩ := walkStruct_legacy_stream cfg h hh fs hec k h1 h2 ho hc (fun f hf ha => (hp f hf ha).1)
    vs b t hv hb new hm
  obtain ⟨s', hs', hpass⟩ := hs.pass h2 (fun f hfm => (List.mem_filter.1 hfm).2)
    (fun f hfm ha => by
      have := hp f (List.mem_filter.1 hfm).1 ha
      simpa [FieldDecl.optimisedC, this.1.notIndexed] using this.2) t 0 plan (by omega)
  rw [Rd.bind_of_ok hw, Rd.bind_of_ok hpass]
  rw [hpl, List.drop_length] at hs'
  rw [hs'.eq_nil]
  rfl

/-- C88: at the next field of legacy data, `into_<field>_bytes` gives the bytes of the field as written and
`walk_<field>` hands over to the walker of its type at those bytes; both refuse a field the data does
not have.

Missing from the full property: as for `C88_legacy_plans_partial`. -/
theorem C88_legacy_field_partial (plan : List Bool) (f : FieldDecl V) (v : V)
    (hfi : (aliveFields fs h.length)[plan.length]? = some f) (hvi : new[plan.length]? = some v) (inner : Rd ω) :
    (f.existsAt k = true → ∃ x u, f.plain.enc v = .ok x ∧
      (do let w ← walkStruct cfg h fs
          let (_, w) ← passFields 0 (aliveFields fs h.length) plan w
          w.intoFieldBytes plan.length f) (b ++ t) = .ok (x, u) ∧
      (do let w ← walkStruct cfg h fs
          let (_, w) ← passFields 0 (aliveFields fs h.length) plan w
          w.walkField inner f) (b ++ t) = inner (x ++ u) ∧
      (do let w ← walkStruct cfg h fs
          let (seen, _) ← passFields 0 (aliveFields fs h.length) plan w
          pure seen) (b ++ t) = .ok (planSees plan new, x ++ u)) ∧
    (f.existsAt k = false →
      (do let w ← walkStruct cfg h fs
          let (_, w) ← passFields 0 (aliveFields fs h.length) plan w
          w.intoFieldBytes plan.length f) (b ++ t) = .err .conversion ∧
      (do let w ← walkStruct cfg h fs
          let (_, w) ← passFields 0 (aliveFields fs h.length) plan w
          w.walkField inner f) (b ++ t) = .err .conversion) := by
  obtain ⟨s, hs, hw⟩ := walkStruct_legacy_stream cfg h hh fs hec k h1 h2 ho hc (fun f hf ha => (hp f hf ha).1)
    vs b t hv hb new hm
  have hf' : ∀ f ∈ fs, f.existsAt k = true → f.optimisedC = f.plain := fun f hfm ha => by
    simp [FieldDecl.optimisedC, (hp f hfm ha).1.notIndexed]
  obtain ⟨n1, n2⟩ := stream_next h2 hs hw (fun f hfm ha => by rw [hf' f hfm ha]; exact (hp f hfm ha).2) plan f v hfi hvi
  have hfm := (List.mem_filter.1 (List.mem_of_getElem? hfi)).1
  have hpr := present_eq h2 (List.mem_filter.1 (List.mem_of_getElem? hfi)).2
  constructor
  · intro ha
    obtain ⟨x, u, hvv, hx, hpass⟩ := n1 ha
    rw [hf' f hfm ha] at hvv hx
    refine ⟨x, u, hx, ?_, ?_, ?_⟩
    · rw [← Rd.bind_assoc, Rd.bind_of_ok hpass]
      simp only [StructRepr.intoFieldBytes, hpr, ha, if_true, hf' f hfm ha]
      exact consumed_run ((hp f hfm ha).2.skip_after _ _ hvv hx _)
    · rw [← Rd.bind_assoc, Rd.bind_of_ok hpass]
      simp only [StructRepr.walkField, hpr, ha, if_true]
    · rw [← Rd.bind_assoc, Rd.bind_of_ok hpass]; rfl
  · intro ha
    obtain ⟨u, hpass⟩ := n2 ha
    refine ⟨?_, ?_⟩
    · rw [← Rd.bind_assoc, Rd.bind_of_ok hpass]
      simp only [StructRepr.intoFieldBytes, hpr, ha]
      rfl
    · rw [← Rd.bind_assoc, Rd.bind_of_ok hpass]
      simp only [StructRepr.walkField, hpr, ha]
      rfl

end

/-! ### Converted data -/

/-- The walker of data that is converted to the current revision first. -/
theorem walkStruct_converted (cfg : Cfg) (h : List Entry) (hh : ValidHistory h) (fs : List (FieldDecl V))
    (k : Nat) (h1 : 1 ≤ k) (h2 : k < h.length) (hcv : structHasConvert fs = true)
    (hn : DistinctNames fs k h.length)
    (hf : ∀ f ∈ fs, f.existsAt k = true → (f.wire (lastEntry (h.take k))).Faithful)
    (hx : ∀ f ∈ fs, f.existsAt k = true → f.existsAt h.length = false →
      (lastEntry (h.take k)).optimised = true → f.isIndexed = false)
    (ho : (lastEntry h).optimised = false)
    (hp : ∀ f ∈ fs, f.existsAt h.length = true →
      f.plain.Faithful ∧ f.opts.fixed = false ∧ f.opts.specialised = false)
    (vs : List V) (b t : Bytes)
    (hv : (structC cfg (h.take k) (fieldsAsOf k fs)).valid vs)
    (hb : (structC cfg (h.take k) (fieldsAsOf k fs)).enc vs = .ok b)
    (new : List V) (hm : migrate k h.length fs vs = .ok new) (hvn : (structC cfg h fs).valid new)
    (b' : Bytes) (hbn : (structC cfg h fs).enc new = .ok b') :
    ∃ p bs, AllValid (fun f => f.plain) (aliveFields fs h.length) new ∧
      Encodes (fun f => f.plain) (aliveFields fs h.length) new bs ∧
      walkStruct cfg h fs (b ++ t) = .ok (.converted (p ++ bs.flatten) p.length, t) := by
  have hfit := hh.fits
  have hmem : lastEntry (h.take k) ∈ h := List.mem_of_getElem? (hh.lastEntry_take h1 (by omega))
  have hrev : (lastEntry (h.take k)).revision = k := by
    have := hh.revision_get (hh.lastEntry_take h1 (by omega : k ≤ h.length))
    omega
  have hkt := (hh.take h1 (by omega : k ≤ h.length)).latest_eq
  rw [List.length_take, Nat.min_eq_left (by omega)] at hkt
  have hdec := C50_migrates_partial cfg h hh fs k h1 (by omega) hf hn hx vs b t hv hb
  obtain ⟨body, -, hb'⟩ := Res.bind_eq_ok.1 hb
  cases hb'
  rw [hkt, List.append_assoc] at hdec ⊢
  have hbn' := hbn
  unfold structC at hdec hvn hbn'
  simp only [hh.latest_eq] at hdec hvn hbn'
  rw [← hrev, dispatch_hit cfg hh hmem] at hdec
  rw [hrev, hm] at hdec
  have haft := afterHeader_hit hh hmem (fun e => deserializeStructBody e h.length fs)
  rw [hrev] at haft
  have hg : (structHasConvert fs && k != h.length) = true := by simp [hcv]; omega
  obtain ⟨body', hbody, hb'⟩ := Res.bind_eq_ok.1 hbn'
  cases hb'
  have hlr := hh.lastEntry_revision
  rw [validFields_iff] at hvn
  obtain ⟨bs, hbs⟩ := serializeStructBody_ok (lastEntry h) fs new body' (by rw [hlr]; exact hvn.length_eq) hbody
  rw [serializeStructBody_encodes _ fs new bs hbs] at hbody
  unfold structLayout at hbody
  simp only [ho, Bool.false_eq_true, false_and, if_false] at hbody
  cases hbody
  rw [hlr] at hbs
  have hwire : ∀ f ∈ aliveFields fs h.length, f.wire (lastEntry h) = f.plain := by
    intro f hfm
    obtain ⟨hfm, ha⟩ := List.mem_filter.1 hfm
    have := hp f hfm ha
    simp [FieldDecl.wire, ho, FieldDecl.legacyC, this.2.1, this.2.2]
  refine ⟨encU16 cfg h.length, bs, hvn.congr hwire, hbs.congr hwire, ?_⟩
  unfold walkStruct
  rw [Rd.bind_of_ok (readU16_encU16 cfg (by omega) _), hh.latest_eq, if_neg (by omega)]
  simp only [hg, if_true, haft]
  rw [Rd.bind_of_ok hdec, hbn]
  simp only [Rd.lift_ok, Rd.pure_bind, readU16_encU16 cfg (show h.length < 2 ^ 16 by omega) bs.flatten]
  rw [List.length_append, Nat.add_sub_cancel]
  rfl

section
variable (cfg : Cfg) (h : List Entry) (hh : ValidHistory h) (fs : List (FieldDecl V))
    (k : Nat) (h1 : 1 ≤ k) (h2 : k < h.length) (hcv : structHasConvert fs = true)
    (hn : DistinctNames fs k h.length)
    (hf : ∀ f ∈ fs, f.existsAt k = true → (f.wire (lastEntry (h.take k))).Faithful)
    (hx : ∀ f ∈ fs, f.existsAt k = true → f.existsAt h.length = false →
      (lastEntry (h.take k)).optimised = true → f.isIndexed = false)
    (ho : (lastEntry h).optimised = false)
    (hp : ∀ f ∈ fs, f.existsAt h.length = true →
      f.plain.Faithful ∧ f.opts.fixed = false ∧ f.opts.specialised = false)
    (vs : List V) (b t : Bytes)
    (hv : (structC cfg (h.take k) (fieldsAsOf k fs)).valid vs)
    (hb : (structC cfg (h.take k) (fieldsAsOf k fs)).enc vs = .ok b)
    (new : List V) (hm : migrate k h.length fs vs = .ok new) (hvn : (structC cfg h fs).valid new)
    (b' : Bytes) (hbn : (structC cfg h fs).enc new = .ok b')
include hh h1 h2 hcv hn hf hx ho hp hv hb hm hvn hbn

/-- C88: data that is converted to the current revision first is gone through in the same way; the
reader stands behind the record from the start.

Missing from the full property: a current revision with the optimised encoding, or fields with `fixed`
or `specialised` (`C57_converted_false`). -/
theorem C88_converted_plans_partial (plan : List Bool) (hpl : plan.length ≤ new.length) :
    (do let w ← walkStruct cfg h fs
        let (seen, _) ← passFields 0 (aliveFields fs h.length) plan w
        pure seen) (b ++ t) = .ok (planSees plan new, t) := by
  obtain ⟨p, bs, hvp, hep, hw⟩ := walkStruct_converted cfg h hh fs k h1 h2 hcv hn hf hx ho hp vs b t hv hb new hm hvn b' hbn
  have hpass := pass_converted hep hvp (fun f hfm => (hp f (List.mem_filter.1 hfm).1 (List.mem_filter.1 hfm).2).1) t 0 plan p hpl
  rw [Rd.bind_of_ok hw, Rd.bind_of_ok hpass]
  rfl

/-- C88: at the next field of converted data, `into_<field>_bytes` gives the plain encoding of the
current value, the view of an `indexed_*` field its indexed encoding, and `walk_<field>` is refused.

Missing from the full property: as for `C88_converted_plans_partial`. -/
theorem C88_converted_field_partial (plan : List Bool) (f : FieldDecl V) (v : V)
    (hfi : (aliveFields fs h.length)[plan.length]? = some f) (hvi : new[plan.length]? = some v) (inner : Rd ω) :
    (∃ x, f.plain.enc v = .ok x ∧
      (do let w ← walkStruct cfg h fs
          let (_, w) ← passFields 0 (aliveFields fs h.length) plan w
          w.intoFieldBytes plan.length f) (b ++ t) = .ok (x, t)) ∧
    (∀ x, f.indexed.enc v = .ok x →
      (do let w ← walkStruct cfg h fs
          let (_, w) ← passFields 0 (aliveFields fs h.length) plan w
          w.viewField plan.length f) (b ++ t) = .ok (x, t)) ∧
    (do let w ← walkStruct cfg h fs
        let (_, w) ← passFields 0 (aliveFields fs h.length) plan w
        w.walkField inner f) (b ++ t) = .err .conversion := by
  obtain ⟨p, bs, hvp, hep, hw⟩ := walkStruct_converted cfg h hh fs k h1 h2 hcv hn hf hx ho hp vs b t hv hb new hm hvn b' hbn
  have hpn := (List.getElem?_eq_some_iff.1 hvi).1
  have hpass := pass_converted hep hvp (fun f hfm => (hp f (List.mem_filter.1 hfm).1 (List.mem_filter.1 hfm).2).1) t 0 plan p
    (by omega)
  have hl := hep.length_eq
  have hff := (hp f (List.mem_filter.1 (List.mem_of_getElem? hfi)).1 (List.mem_filter.1 (List.mem_of_getElem? hfi)).2).1
  obtain ⟨hfl, hfe⟩ := List.getElem?_eq_some_iff.1 hfi
  obtain ⟨hvl, hve⟩ := List.getElem?_eq_some_iff.1 hvi
  have hxi := hep.get plan.length hfl hvl (by omega)
  have hvi' := hvp.get plan.length hfl hvl
  rw [hfe, hve] at hxi hvi'
  have hsplit : bs.flatten = (bs.take plan.length).flatten ++ (bs[plan.length]'(by omega) ++ (bs.drop (plan.length + 1)).flatten) := by
    rw [← List.flatten_cons, ← List.drop_eq_getElem_cons, ← List.flatten_append, List.take_append_drop]
  have hcur := atCursor_run (m := f.plain.dec) (p ++ (bs.take plan.length).flatten) (bs[plan.length]'(by omega))
    (bs.drop (plan.length + 1)).flatten (fun t => hff.round_trip v _ hvi' hxi t)
  rw [List.append_assoc, ← hsplit] at hcur
  refine ⟨⟨_, hxi, ?_⟩, fun x hx' => ?_, ?_⟩
  · rw [Rd.bind_of_ok hw, Rd.bind_of_ok hpass]
    simp only [StructRepr.intoFieldBytes, hcur, Rd.lift_ok, Rd.pure_bind, hxi]
    rfl
  · rw [Rd.bind_of_ok hw, Rd.bind_of_ok hpass]
    simp only [StructRepr.viewField, StructRepr.decodeField, hcur, Rd.lift_ok, Rd.pure_bind, hx']
    rfl
  · rw [Rd.bind_of_ok hw, Rd.bind_of_ok hpass]
    rfl

end

/-! ### The hypotheses can be met -/

/-- A revision-1 record `{ a: 300 }`, legacy, read at revision 2, which has `b` in addition. -/
example : (structC .default [⟨1, false, false⟩] (fieldsAsOf 1 addedFields)).enc [DV.u32 300] = .ok [1, 251, 44, 1] ∧
    migrate 1 2 addedFields [DV.u32 300] = .ok [DV.u32 300, DV.u32 1] ∧
    (do let w ← walkStruct .default [⟨1, false, false⟩, ⟨2, false, false⟩] addedFields
        let (seen, _) ← passFields 0 (aliveFields addedFields 2) [false, true] w
        pure seen) [1, 251, 44, 1, 99] = .ok ([none, some (DV.u32 1)], [99]) ∧
    (do let w ← walkStruct .default [⟨1, false, false⟩, ⟨2, false, false⟩] addedFields
        w.intoFieldBytes 0 (u32Field .default "a" {})) [1, 251, 44, 1, 99] = .ok ([251, 44, 1], [99]) ∧
    (do let w ← walkStruct .default [⟨1, false, false⟩, ⟨2, false, false⟩] addedFields
        w.walkField Rd.readByte (u32Field .default "a" {})) [1, 251, 44, 1, 99] = .ok (251, [44, 1, 99]) :=
  ⟨rfl, rfl, rfl, rfl, rfl⟩

/-- The hypotheses of the legacy theorems hold of it. -/
example (plan : List Bool) (hp : plan.length = 2) (t : Bytes) :
    (do let w ← walkStruct .default [⟨1, false, false⟩, ⟨2, false, false⟩] addedFields
        let (seen, _) ← passFields 0 (aliveFields addedFields 2) plan w
        pure seen) ([1, 251, 44, 1] ++ t) = .ok (planSees plan [DV.u32 300, DV.u32 1], t) :=
  C88_legacy_plans_partial .default [⟨1, false, false⟩, ⟨2, false, false⟩] ⟨by decide, by decide, by decide⟩
    addedFields addedFields_ok.1 1 (by decide) (by decide) rfl (.inl addedFields_ok.2.1)
    (fun f hf _ => ⟨addedFields_ok.2.2.2 f hf, by
      simp only [addedFields, List.mem_cons, List.not_mem_nil, or_false] at hf
      rcases hf with rfl | rfl <;> exact dynC_faithful _ (Ty.codec_faithful _ demoEnv_lawful (fun e => nomatch e) _)⟩)
    [DV.u32 300] [1, 251, 44, 1] t ⟨⟨_, rfl, trivial⟩, rfl⟩ rfl [DV.u32 300, DV.u32 1] rfl plan hp

/-- `struct { a: u32, #[revision(end = 2, convert_fn)] gone: u32, #[revision(indexed_seq)] l: Vec<u32> }`. -/
def viewedFields : List (FieldDecl DV) :=
  [u32Field .default "a" {}, u32Field .default "gone" { stop := some 2, convert := some "…" },
    u32sField .default "l" { indexedSeq := true }]

/-- A revision-1 record `{ a: 7, gone: 9, l: [5, 6] }`, optimised, walked at revision 2, legacy: the view
of `l` is re-encoded. -/
example : structHasConvert viewedFields = true ∧
    (structC .default [⟨1, true, false⟩] (fieldsAsOf 1 viewedFields)).enc [DV.u32 7, DV.u32 9, DV.u32s [5, 6]] =
      .ok [1, 6, 0, 0, 0, 7, 9, 0, 2, 5, 6] ∧
    migrate 1 2 viewedFields [DV.u32 7, DV.u32 9, DV.u32s [5, 6]] = .ok [DV.u32 10, DV.u32s [5, 6]] ∧
    (structC .default [⟨1, true, false⟩, ⟨2, false, false⟩] viewedFields).enc [DV.u32 10, DV.u32s [5, 6]] =
      .ok [2, 10, 2, 5, 0, 0, 0, 6, 0, 0, 0] ∧
    (do let w ← walkStruct .default [⟨1, true, false⟩, ⟨2, false, false⟩] viewedFields
        let (_, w) ← passFields 0 (aliveFields viewedFields 2) [false] w
        w.intoFieldBytes 1 (u32sField .default "l" { indexedSeq := true })) [1, 6, 0, 0, 0, 7, 9, 0, 2, 5, 6, 99] =
      .ok ([2, 5, 0, 0, 0, 6, 0, 0, 0], [99]) ∧
    (do let w ← walkStruct .default [⟨1, true, false⟩, ⟨2, false, false⟩] viewedFields
        let (_, w) ← passFields 0 (aliveFields viewedFields 2) [false] w
        w.viewField 1 (u32sField .default "l" { indexedSeq := true })) [1, 6, 0, 0, 0, 7, 9, 0, 2, 5, 6, 99] =
      .ok ([0, 2, 5, 6], [99]) := ⟨rfl, rfl, rfl, rfl, rfl, rfl⟩

/-- The hypotheses of the theorems about converted data hold of it. -/
theorem viewed_list_valid :
    (indexedSeqC (demoEnv.cap (.int .u32)) ((Ty.int .u32).codec .default demoEnv)).valid
      [BitVec.ofNat 32 5, BitVec.ofNat 32 6] := by
  refine ⟨by decide, by decide, fun _ _ => trivial, ?_⟩
  intro a ha b hb
  simp only [List.mem_cons, List.not_mem_nil, or_false] at ha
  rcases ha with rfl | rfl <;> cases hb <;> decide

theorem viewedFields_faithful : ∀ f ∈ viewedFields, ∀ e, (f.wire e).Faithful := by
  intro f hf e
  simp only [viewedFields, List.mem_cons, List.not_mem_nil, or_false] at hf
  rcases hf with rfl | rfl | rfl <;>
    exact tyField_wire_faithful .default demoEnv_lawful (fun i => nomatch i) _ _ _ _ _ e

theorem viewedFields_ok : DistinctNames viewedFields 1 2 ∧
    (∀ f ∈ viewedFields, f.existsAt 1 = true → f.existsAt 2 = false → true = true → f.isIndexed = false) ∧
    (∀ f ∈ viewedFields, f.existsAt 2 = true →
      f.plain.Faithful ∧ f.opts.fixed = false ∧ f.opts.specialised = false) := by
  refine ⟨?_, ?_, ?_⟩
  · simp [DistinctNames, viewedFields, u32Field, u32sField, tyField, FieldDecl.existsAt, existsAt]
  · intro f hf _ h2 _
    simp only [viewedFields, List.mem_cons, List.not_mem_nil, or_false] at hf
    rcases hf with rfl | rfl | rfl <;> first | rfl | cases h2
  · intro f hf _
    have := viewedFields_faithful f hf ⟨1, false, false⟩
    simp only [viewedFields, List.mem_cons, List.not_mem_nil, or_false] at hf
    rcases hf with rfl | rfl | rfl <;> exact ⟨this, rfl, rfl⟩

theorem viewed_valid :
    (structC .default [⟨1, true, false⟩] (fieldsAsOf 1 viewedFields)).valid [DV.u32 7, DV.u32 9, DV.u32s [5, 6]] ∧
    (structC .default [⟨1, true, false⟩, ⟨2, false, false⟩] viewedFields).valid [DV.u32 10, DV.u32s [5, 6]] :=
  ⟨⟨⟨_, rfl, trivial⟩, ⟨_, rfl, trivial⟩, ⟨_, rfl, viewed_list_valid⟩, rfl⟩,
    ⟨⟨_, rfl, trivial⟩, ⟨_, rfl, by decide, by decide, fun _ => rfl⟩, rfl⟩⟩

example (t : Bytes) (plan : List Bool) (hp : plan.length ≤ 2) :
    (do let w ← walkStruct .default [⟨1, true, false⟩, ⟨2, false, false⟩] viewedFields
        let (seen, _) ← passFields 0 (aliveFields viewedFields 2) plan w
        pure seen) ([1, 6, 0, 0, 0, 7, 9, 0, 2, 5, 6] ++ t) = .ok (planSees plan [DV.u32 10, DV.u32s [5, 6]], t) :=
  C88_converted_plans_partial .default [⟨1, true, false⟩, ⟨2, false, false⟩] ⟨by decide, by decide, by decide⟩
    viewedFields 1 (by decide) (by decide) rfl viewedFields_ok.1 (fun f hf _ => viewedFields_faithful f hf _)
    viewedFields_ok.2.1 rfl viewedFields_ok.2.2 [DV.u32 7, DV.u32 9, DV.u32s [5, 6]] _ t viewed_valid.1 rfl
    [DV.u32 10, DV.u32s [5, 6]] rfl viewed_valid.2 _ rfl plan hp

example (t : Bytes) (first : Bool) :
    (do let w ← walkStruct .default [⟨1, true, false⟩, ⟨2, false, false⟩] viewedFields
        let (_, w) ← passFields 0 (aliveFields viewedFields 2) [first] w
        w.viewField 1 (u32sField .default "l" { indexedSeq := true })) ([1, 6, 0, 0, 0, 7, 9, 0, 2, 5, 6] ++ t) =
      .ok ([0, 2, 5, 6], t) :=
  (C88_converted_field_partial .default [⟨1, true, false⟩, ⟨2, false, false⟩] ⟨by decide, by decide, by decide⟩
    viewedFields 1 (by decide) (by decide) rfl viewedFields_ok.1 (fun f hf _ => viewedFields_faithful f hf _)
    viewedFields_ok.2.1 rfl viewedFields_ok.2.2 [DV.u32 7, DV.u32 9, DV.u32s [5, 6]] _ t viewed_valid.1 rfl
    [DV.u32 10, DV.u32s [5, 6]] rfl viewed_valid.2 _ rfl [first] (u32sField .default "l" { indexedSeq := true })
    (DV.u32s [5, 6]) rfl rfl (Rd.readByte)).2.1 _ rfl

end Revision
