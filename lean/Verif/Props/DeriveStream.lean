import Verif.Proofs.DeriveStream
import Verif.Props.DeriveWalk

/-! # C67: going through a struct with a streaming walker -/

namespace Revision

variable {V : Type}

/-- The walker of data written with the optimised sequential encoding stands before the first field. -/
theorem walkStruct_stream (cfg : Cfg) (h : List Entry) (hh : ValidHistory h) (fs : List (FieldDecl V))
    (hec : EndsConverted fs) (k : Nat) (h1 : 1 ≤ k) (h2 : k ≤ h.length)
    (ho : (lastEntry (h.take k)).optimised = true) (hi : (lastEntry (h.take k)).indexedStruct = false)
    (hc : NotConverted h fs k) (vs : List V) (b t : Bytes)
    (hv : (structC cfg (h.take k) (fieldsAsOf k fs)).valid vs)
    (hb : (structC cfg (h.take k) (fieldsAsOf k fs)).enc vs = .ok b)
    (new : List V) (hm : migrate k h.length fs vs = .ok new) :
    ∃ s, FieldStream k (aliveFields fs h.length) new s ∧ walkStruct cfg h fs (b ++ t) = .ok (.wire k, s ++ t) := by
  have hfit := hh.fits
  have hk := hec.noneRemoved hc h2 (by omega)
  have hmem : lastEntry (h.take k) ∈ h := List.mem_of_getElem? (hh.lastEntry_take h1 h2)
  have hrev : (lastEntry (h.take k)).revision = k := by
    have := hh.revision_get (hh.lastEntry_take h1 h2)
    omega
  have hkt := (hh.take h1 h2).latest_eq
  rw [List.length_take, Nat.min_eq_left h2] at hkt
  unfold structC at hv hb
  simp only [hkt] at hv hb
  generalize lastEntry (h.take k) = e at *
  subst hrev
  obtain ⟨body, hbody, hb'⟩ := Res.bind_eq_ok.1 hb
  cases hb'
  rw [serializeStructBody_asOf e (by omega)] at hbody
  rw [validFields_asOf (by omega), validFields_iff] at hv
  obtain ⟨bs, hbs⟩ := serializeStructBody_ok e fs vs body hv.length_eq hbody
  rw [serializeStructBody_encodes e fs vs bs hbs] at hbody
  unfold structLayout structPayload at hbody
  simp only [ho, hi, Bool.false_eq_true, if_false, true_and, if_true] at hbody
  split at hbody
  · cases hbody
  rename_i hlt
  cases hbody
  have hwire : (fun f : FieldDecl V => f.wire e) = fun f => f.optimisedC := by
    funext f; simp [FieldDecl.wire, ho]
  rw [hwire] at hv hbs
  refine ⟨bs.flatten, .of_migrate fs vs new bs hk hv hbs hm, ?_⟩
  have hw := walkStruct_direct cfg hh hmem hc (fs := fs)
    (readU16_encU16 cfg (by omega) (leBytes 4 bs.flatten.length ++ bs.flatten ++ t))
  simp only [ho, hi, Bool.false_eq_true, if_false, if_true] at hw
  rw [List.append_assoc (leBytes 4 bs.flatten.length), Rd.bind_of_ok (readVarlenLen_append _ (by omega) _)] at hw
  rw [List.append_assoc, List.append_assoc]
  exact hw

/-- Data written at a revision with the optimised sequential encoding, followed by anything, is gone
through in order, each field being decoded or skipped at will: the decodes give the fields of the
current revision (`new`), and after the last field the reader stands behind the record. -/
theorem C67_plans (cfg : Cfg) (h : List Entry) (hh : ValidHistory h) (fs : List (FieldDecl V))
    (hec : EndsConverted fs) (k : Nat) (h1 : 1 ≤ k) (h2 : k ≤ h.length)
    (ho : (lastEntry (h.take k)).optimised = true) (hi : (lastEntry (h.take k)).indexedStruct = false)
    (hc : NotConverted h fs k)
    (hf : ∀ f ∈ fs, f.existsAt k = true → (f.wire (lastEntry (h.take k))).Faithful)
    (vs : List V) (b t : Bytes)
    (hv : (structC cfg (h.take k) (fieldsAsOf k fs)).valid vs)
    (hb : (structC cfg (h.take k) (fieldsAsOf k fs)).enc vs = .ok b)
    (new : List V) (hm : migrate k h.length fs vs = .ok new)
    (plan : List Bool) (hp : plan.length = new.length) :
    (do let w ← walkStruct cfg h fs
        let (seen, _) ← passFields 0 (aliveFields fs h.length) plan w
        pure seen) (b ++ t) = .ok (planSees plan new, t) := by
  obtain ⟨s, hs, hw⟩ := walkStruct_stream cfg h hh fs hec k h1 h2 ho hi hc vs b t hv hb new hm
  obtain ⟨s', hs', hpass⟩ := hs.pass h2 (fun f hfm => (List.mem_filter.1 hfm).2)
    (fun f hfm ha => by
      have := hf f (List.mem_filter.1 hfm).1 ha
      simpa [FieldDecl.wire, ho] using this) t 0 plan (by omega)
  rw [Rd.bind_of_ok hw, Rd.bind_of_ok hpass]
  rw [hp, List.drop_length] at hs'
  rw [hs'.eq_nil]
  rfl

/-- After any number of fields have been decoded or skipped, `into_<field>_bytes` of the next one gives
the bytes of that field as written, no more and no less, and leaves the reader behind them; a field
that the data does not have is an error. -/
theorem C67_field_bytes (cfg : Cfg) (h : List Entry) (hh : ValidHistory h) (fs : List (FieldDecl V))
    (hec : EndsConverted fs) (k : Nat) (h1 : 1 ≤ k) (h2 : k ≤ h.length)
    (ho : (lastEntry (h.take k)).optimised = true) (hi : (lastEntry (h.take k)).indexedStruct = false)
    (hc : NotConverted h fs k)
    (hf : ∀ f ∈ fs, f.existsAt k = true → (f.wire (lastEntry (h.take k))).Faithful)
    (vs : List V) (b t : Bytes)
    (hv : (structC cfg (h.take k) (fieldsAsOf k fs)).valid vs)
    (hb : (structC cfg (h.take k) (fieldsAsOf k fs)).enc vs = .ok b)
    (new : List V) (hm : migrate k h.length fs vs = .ok new)
    (plan : List Bool) (f : FieldDecl V) (v : V)
    (hfi : (aliveFields fs h.length)[plan.length]? = some f) (hvi : new[plan.length]? = some v) :
    (f.existsAt k = true → ∃ x u, f.optimisedC.enc v = .ok x ∧
      (do let w ← walkStruct cfg h fs
          let (_, w) ← passFields 0 (aliveFields fs h.length) plan w
          w.intoFieldBytes plan.length f) (b ++ t) = .ok (x, u) ∧
      (do let w ← walkStruct cfg h fs
          let (seen, _) ← passFields 0 (aliveFields fs h.length) plan w
          pure seen) (b ++ t) = .ok (planSees plan new, x ++ u)) ∧
    (f.existsAt k = false →
      (do let w ← walkStruct cfg h fs
          let (_, w) ← passFields 0 (aliveFields fs h.length) plan w
          w.intoFieldBytes plan.length f) (b ++ t) = .err .conversion) := by
  obtain ⟨s, hs, hw⟩ := walkStruct_stream cfg h hh fs hec k h1 h2 ho hi hc vs b t hv hb new hm
  have hfm : f ∈ aliveFields fs h.length := List.mem_of_getElem? hfi
  have hpn := (List.getElem?_eq_some_iff.1 hvi).1
  obtain ⟨s', hs', hpass⟩ := hs.pass h2 (fun f hfm => (List.mem_filter.1 hfm).2)
    (fun f hfm ha => by
      have := hf f (List.mem_filter.1 hfm).1 ha
      simpa [FieldDecl.wire, ho] using this) t 0 plan (by omega)
  obtain ⟨hfl, rfl⟩ := List.getElem?_eq_some_iff.1 hfi
  obtain ⟨hvl, rfl⟩ := List.getElem?_eq_some_iff.1 hvi
  rw [List.drop_eq_getElem_cons hfl, List.drop_eq_getElem_cons hvl] at hs'
  have hpr := present_eq h2 (List.mem_filter.1 hfm).2
  constructor
  · intro ha
    cases hs' with
    | absent hc => rw [ha] at hc; cases hc
    | @stored _ _ _ _ x s'' _ hvv hx hs'' =>
      have hff := hf _ (List.mem_filter.1 hfm).1 ha
      simp only [FieldDecl.wire, ho, if_true] at hff
      refine ⟨x, s'' ++ t, hx, ?_, ?_⟩
      · rw [Rd.bind_of_ok hw, Rd.bind_of_ok hpass, List.append_assoc]
        simp only [StructRepr.intoFieldBytes, hpr, ha, if_true]
        exact consumed_run (hff.skip_after _ _ hvv hx _)
      · rw [Rd.bind_of_ok hw, Rd.bind_of_ok hpass, List.append_assoc]
        rfl
  · intro ha
    rw [Rd.bind_of_ok hw, Rd.bind_of_ok hpass]
    simp only [StructRepr.intoFieldBytes, hpr, ha]
    rfl

/-- The theorems applied to that record, with any plan. -/
example (t : Bytes) (plan : List Bool) (hp : plan.length = 2) :
    (do let w ← walkStruct .default [⟨1, true, false⟩, ⟨2, true, false⟩] addedFields
        let (seen, _) ← passFields 0 (aliveFields addedFields 2) plan w
        pure seen) ([1, 3, 0, 0, 0, 251, 44, 1] ++ t) = .ok (planSees plan [DV.u32 300, DV.u32 1], t) :=
  C67_plans .default [⟨1, true, false⟩, ⟨2, true, false⟩] ⟨by decide, by decide, by decide⟩ addedFields
    addedFields_ok.1 1 (by decide) (by decide) rfl rfl (.inl rfl) (fun f hf _ => addedFields_faithful f hf _)
    [DV.u32 300] _ t ⟨⟨_, rfl, trivial⟩, rfl⟩ rfl [DV.u32 300, DV.u32 1] rfl plan hp

example (t : Bytes) (first : Bool) :
    (do let w ← walkStruct .default [⟨1, true, false⟩, ⟨2, true, false⟩] addedFields
        let (_, w) ← passFields 0 (aliveFields addedFields 2) [first] w
        w.intoFieldBytes 1 (u32Field .default "b" { start := some 2, default := some "…" }))
      ([1, 3, 0, 0, 0, 251, 44, 1] ++ t) = .err .conversion :=
  (C67_field_bytes .default [⟨1, true, false⟩, ⟨2, true, false⟩] ⟨by decide, by decide, by decide⟩ addedFields
    addedFields_ok.1 1 (by decide) (by decide) rfl rfl (.inl rfl) (fun f hf _ => addedFields_faithful f hf _)
    [DV.u32 300] _ t ⟨⟨_, rfl, trivial⟩, rfl⟩ rfl [DV.u32 300, DV.u32 1] rfl [first]
    (u32Field .default "b" { start := some 2, default := some "…" }) (DV.u32 1) rfl rfl).2 rfl

/-- A revision-1 record `{ a: 300 }` read at revision 2, which has `b` in addition. -/
example : (structC .default [⟨1, true, false⟩] (fieldsAsOf 1 addedFields)).enc [DV.u32 300] =
      .ok [1, 3, 0, 0, 0, 251, 44, 1] ∧
    migrate 1 2 addedFields [DV.u32 300] = .ok [DV.u32 300, DV.u32 1] ∧
    (do let w ← walkStruct .default [⟨1, true, false⟩, ⟨2, true, false⟩] addedFields
        let (seen, _) ← passFields 0 (aliveFields addedFields 2) [false, true] w
        pure seen) [1, 3, 0, 0, 0, 251, 44, 1, 99] = .ok ([none, some (DV.u32 1)], [99]) ∧
    (do let w ← walkStruct .default [⟨1, true, false⟩, ⟨2, true, false⟩] addedFields
        w.intoFieldBytes 0 (u32Field .default "a" {})) [1, 3, 0, 0, 0, 251, 44, 1, 99] =
      .ok ([251, 44, 1], [99]) ∧
    (do let w ← walkStruct .default [⟨1, true, false⟩, ⟨2, true, false⟩] addedFields
        let (_, w) ← passFields 0 (aliveFields addedFields 2) [true] w
        w.intoFieldBytes 1 (u32Field .default "b" { start := some 2, default := some "…" }))
      [1, 3, 0, 0, 0, 251, 44, 1, 99] = .err .conversion := ⟨rfl, rfl, rfl, rfl, rfl⟩

/-- The view of an `indexed_*` field is not guarded in this way: for a field added since the data was
written, `walk_<field>` gives the bytes that follow the record as the view of the field. -/
theorem C67_view_false :
    ∃ (h : List Entry) (fs : List (FieldDecl DV)) (f : FieldDecl DV) (vs : List DV) (b : Bytes),
      ValidHistory h ∧ (structC .default (h.take 1) (fieldsAsOf 1 fs)).valid vs ∧
      (structC .default (h.take 1) (fieldsAsOf 1 fs)).enc vs = .ok b ∧
      (aliveFields fs h.length)[1]? = some f ∧ f.existsAt 1 = false ∧
      (structC .default h fs).dec (b ++ [0, 1, 5]) = .ok ([DV.u32 7, DV.u32s []], [0, 1, 5]) ∧
      (do let w ← walkStruct .default h fs
          let (_, w) ← passFields 0 (aliveFields fs h.length) [true] w
          w.viewField 1 f) (b ++ [0, 1, 5]) = .ok ([0, 1, 5], []) :=
  ⟨[⟨1, true, false⟩, ⟨2, true, false⟩],
    [u32Field .default "a" {},
      u32sField .default "l" { start := some 2, default := some "…", indexedSeq := true }], _,
    [DV.u32 7], [1, 1, 0, 0, 0, 7], ⟨by decide, by decide, by decide⟩,
    ⟨⟨_, rfl, trivial⟩, rfl⟩, rfl, rfl, rfl, rfl, rfl⟩

end Revision
