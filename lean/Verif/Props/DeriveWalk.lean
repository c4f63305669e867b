import Verif.Proofs.DeriveWalk
import Verif.Props.Derive

/-! # C57, C58: walkers of derived structs -/

namespace Revision

variable {V : Type}

/-! ## C57 A struct walker presents the current schema

Decoding the fields of the current revision one by one is the same as deserialising, with the same
error if there is one, and leaves the source at the same place.  This does not hold in general; the
theorems cover the four ways a walker can be built, each with the conditions it needs, and the
counterexamples show that the conditions are needed. -/

theorem decodePairs_congr {live live' removed removed' : FieldDecl V → Rd V} {cur tgt : Nat} :
    ∀ (fs : List (FieldDecl V)), NoneRemoved fs cur tgt →
    (∀ f ∈ fs, f.existsAt cur = true → live f = live' f) →
    decodePairs live removed cur tgt fs = decodePairs live' removed' cur tgt fs
  | [], _, _ => rfl
  | f :: fs, hk, hl => by
    unfold decodePairs
    rw [decodePairs_congr (removed' := removed') fs (fun g hg => hk g (List.mem_cons_of_mem _ hg))
      (fun g hg => hl g (List.mem_cons_of_mem _ hg))]
    cases hc : f.existsAt cur with
    | false => simp
    | true =>
      have ht := hk f List.mem_cons_self hc
      simp [ht, hl f List.mem_cons_self hc]

/-- Data of a revision with the legacy encoding, whatever the bytes.

Missing from the full property: fields with `fixed`, `specialised` or `indexed_*`
(`C57_fixed_false`, `C57_legacy_indexed_false`). -/
theorem C57_legacy_partial (cfg : Cfg) (h : List Entry) (hh : ValidHistory h) (fs : List (FieldDecl V))
    (hec : EndsConverted fs) (e : Entry) (he : e ∈ h) (ho : e.optimised = false)
    (hc : NotConverted h fs e.revision) (hn : DistinctNames fs e.revision h.length)
    (hp : ∀ f ∈ fs, f.existsAt e.revision = true → f.Plain)
    (s t : Bytes) (hs : readU16 cfg s = .ok (e.revision, t)) :
    walkAndDecode cfg h fs s = (structC cfg h fs).dec s := by
  have hle := (hh.revision_le he).2
  have hfit := hh.fits
  have hk := hec.noneRemoved hc hle (by omega)
  unfold walkAndDecode
  have hw := walkStruct_direct cfg hh he hc hs
  rw [ho] at hw
  rw [Rd.bind_of_ok (a := .wire e.revision) (r := t) hw]
  unfold structC
  simp only [hh.latest_eq]
  unfold dispatchRevision
  rw [Rd.bind_of_ok hs]
  simp only [hh.find he]
  unfold deserializeStructBody
  simp only [ho, Bool.false_eq_true, if_false]
  rw [decodeStructBody_kept _ _ _ _ fs hn hk, decodeEach_wire (fun f => f.removedDec e) hle fs 0 hk]
  rw [decodePairs_congr (live' := fun f => (f.wire e).dec) (removed' := fun f => f.removedDec e) fs hk]
  intro f hf ha
  have hp := hp f hf ha
  simp [FieldDecl.wire, ho, FieldDecl.legacyC, FieldDecl.optimisedC, hp.fixed, hp.specialised, hp.notIndexed]

/-- ```
struct S { a: u32, #[revision(start = 2, default_fn = "…")] b: u32 }
``` -/
def addedFields : List (FieldDecl DV) :=
  [u32Field .default "a" {}, u32Field .default "b" { start := some 2, default := some "…" }]

/-- ```
struct S { a: u32, #[revision(end = 2, convert_fn = "…")] gone: u32 }
``` -/
def endedFields : List (FieldDecl DV) :=
  [u32Field .default "a" {}, u32Field .default "gone" { stop := some 2, convert := some "…" }]

theorem addedFields_ok : EndsConverted addedFields ∧ structHasConvert addedFields = false ∧
    DistinctNames addedFields 1 2 ∧ (∀ f ∈ addedFields, f.Plain) := by
  refine ⟨?_, rfl, ?_, ?_⟩
  · simp [EndsConverted, addedFields, u32Field, tyField]
  · simp [DistinctNames, addedFields, u32Field, tyField, FieldDecl.existsAt, existsAt]
  · intro f hf
    simp only [addedFields, List.mem_cons, List.not_mem_nil, or_false] at hf
    rcases hf with rfl | rfl <;> exact ⟨rfl, rfl, rfl⟩

/-- The fields of both round trip in every encoding. -/
theorem addedFields_faithful : ∀ f ∈ addedFields, ∀ e, (f.wire e).Faithful := by
  intro f hf e
  simp only [addedFields, List.mem_cons, List.not_mem_nil, or_false] at hf
  rcases hf with rfl | rfl <;>
    exact tyField_wire_faithful .default demoEnv_lawful (fun i => nomatch i) _ _ _ _ _ e

theorem endedFields_faithful : ∀ f ∈ endedFields, ∀ e, (f.wire e).Faithful := by
  intro f hf e
  simp only [endedFields, List.mem_cons, List.not_mem_nil, or_false] at hf
  rcases hf with rfl | rfl <;>
    exact tyField_wire_faithful .default demoEnv_lawful (fun i => nomatch i) _ _ _ _ _ e

/-- The theorem applied: whatever follows the header of revision 1. -/
example (t : Bytes) : walkAndDecode .default [⟨1, false, false⟩, ⟨2, true, false⟩] addedFields (1 :: t) =
    (structC .default [⟨1, false, false⟩, ⟨2, true, false⟩] addedFields).dec (1 :: t) :=
  C57_legacy_partial .default [⟨1, false, false⟩, ⟨2, true, false⟩] ⟨by decide, by decide, by decide⟩ addedFields
    addedFields_ok.1 ⟨1, false, false⟩ (.head _) rfl (.inl rfl) addedFields_ok.2.2.1
    (fun f hf _ => addedFields_ok.2.2.2 f hf) _ t rfl

/-- A revision-1 record `{ a: 7 }` walked at revision 2. -/
example : NotConverted [⟨1, false, false⟩, ⟨2, true, false⟩] addedFields 1 ∧
    readU16 .default [1, 7, 99] = .ok (1, [7, 99]) ∧
    walkAndDecode .default [⟨1, false, false⟩, ⟨2, true, false⟩] addedFields [1, 7, 99] =
      .ok ([DV.u32 7, DV.u32 1], [99]) := ⟨.inl rfl, rfl, rfl⟩

/-- Data written at a revision with the optimised sequential encoding, followed by anything. -/
theorem C57_optimised (cfg : Cfg) (h : List Entry) (hh : ValidHistory h) (fs : List (FieldDecl V))
    (hec : EndsConverted fs) (k : Nat) (h1 : 1 ≤ k) (h2 : k ≤ h.length)
    (ho : (lastEntry (h.take k)).optimised = true) (hi : (lastEntry (h.take k)).indexedStruct = false)
    (hc : NotConverted h fs k) (hn : DistinctNames fs k h.length)
    (hf : ∀ f ∈ fs, f.existsAt k = true → (f.wire (lastEntry (h.take k))).Faithful)
    (vs : List V) (b t : Bytes)
    (hv : (structC cfg (h.take k) (fieldsAsOf k fs)).valid vs)
    (hb : (structC cfg (h.take k) (fieldsAsOf k fs)).enc vs = .ok b) :
    walkAndDecode cfg h fs (b ++ t) = (structC cfg h fs).dec (b ++ t) := by
  have hfit := hh.fits
  have hk := hec.noneRemoved hc h2 (by omega)
  rw [C50_migrates_partial cfg h hh fs k h1 h2 hf hn
    (fun f hfm ha hb => by rw [hk f hfm ha] at hb; cases hb) vs b t hv hb]
  have hmem : lastEntry (h.take k) ∈ h := List.mem_of_getElem? (hh.lastEntry_take h1 h2)
  have hrev : (lastEntry (h.take k)).revision = k := by
    have := hh.revision_get (hh.lastEntry_take h1 h2)
    omega
  have hkt := (hh.take h1 h2).latest_eq
  rw [List.length_take, Nat.min_eq_left h2] at hkt
  unfold structC at hv hb
  simp only [hkt] at hv hb
  generalize lastEntry (h.take k) = e at *
  subst hrev
  obtain ⟨body, hbody, hb'⟩ := Res.bind_eq_ok.1 hb
  cases hb'
  rw [serializeStructBody_asOf e (by omega)] at hbody
  rw [validFields_asOf (by omega), validFields_iff] at hv
  obtain ⟨bs, hbs⟩ := serializeStructBody_ok e fs vs body hv.length_eq hbody
  rw [serializeStructBody_encodes e fs vs bs hbs] at hbody
  unfold structLayout structPayload at hbody
  simp only [ho, hi, Bool.false_eq_true, if_false, true_and, if_true] at hbody
  split at hbody
  · cases hbody
  rename_i hlt
  cases hbody
  unfold walkAndDecode
  have hw := walkStruct_direct cfg hh hmem hc (fs := fs)
    (readU16_encU16 cfg (by omega) (leBytes 4 bs.flatten.length ++ bs.flatten ++ t))
  simp only [ho, hi, Bool.false_eq_true, if_false, if_true] at hw
  rw [List.append_assoc (leBytes 4 bs.flatten.length), Rd.bind_of_ok (readVarlenLen_append _ (by omega) _)] at hw
  rw [← List.append_assoc] at hw
  rw [← List.append_assoc, List.append_assoc (encU16 cfg e.revision ++ _), List.append_assoc] at *
  rw [Rd.bind_of_ok (a := .wire e.revision) (r := bs.flatten ++ t) hw]
  rw [decodeEach_wire (fun f => f.removedDec e) h2 fs 0 hk, ← decodeStructBody_kept _ _ _ _ fs hn hk]
  refine decodeStructBody_run (c := fun f => f.wire e) fs vs bs t ?_ ?_ hn hv hbs
  · intro f hfm ha _ v b hv hb t
    have := (hf f hfm ha).round_trip v b hv hb t
    simpa [FieldDecl.wire, ho] using this
  · intro f hfm ha hb
    rw [hk f hfm ha] at hb; cases hb

example (t : Bytes) : walkAndDecode .default [⟨1, true, false⟩, ⟨2, true, true⟩] addedFields ([1, 1, 0, 0, 0, 7] ++ t) =
    (structC .default [⟨1, true, false⟩, ⟨2, true, true⟩] addedFields).dec ([1, 1, 0, 0, 0, 7] ++ t) :=
  C57_optimised .default [⟨1, true, false⟩, ⟨2, true, true⟩] ⟨by decide, by decide, by decide⟩ addedFields
    addedFields_ok.1 1 (by decide) (by decide) rfl rfl (.inl rfl) addedFields_ok.2.2.1
    (fun f hf _ => addedFields_faithful f hf _) [DV.u32 7] _ t ⟨⟨_, rfl, trivial⟩, rfl⟩ rfl

/-- A revision-1 record `{ a: 7 }`, optimised, walked at revision 2. -/
example : (structC .default [⟨1, true, false⟩] (fieldsAsOf 1 addedFields)).enc [DV.u32 7] = .ok [1, 1, 0, 0, 0, 7] ∧
    walkAndDecode .default [⟨1, true, false⟩, ⟨2, true, true⟩] addedFields [1, 1, 0, 0, 0, 7, 99] =
      .ok ([DV.u32 7, DV.u32 1], [99]) := ⟨rfl, rfl⟩

/-- The walker of a struct with the indexed encoding holds the written payload. -/
theorem walkStruct_indexed (cfg : Cfg) (h : List Entry) (hh : ValidHistory h) (fs : List (FieldDecl V))
    (k : Nat) (h1 : 1 ≤ k) (h2 : k ≤ h.length)
    (ho : (lastEntry (h.take k)).optimised = true) (hi : (lastEntry (h.take k)).indexedStruct = true)
    (hc : NotConverted h fs k) (vs : List V) (b t : Bytes)
    (hv : (structC cfg (h.take k) (fieldsAsOf k fs)).valid vs)
    (hb : (structC cfg (h.take k) (fieldsAsOf k fs)).enc vs = .ok b) :
    ∃ bs, AllValid (fun f => f.optimisedC) (aliveFields fs k) vs ∧
      Encodes (fun f => f.optimisedC) (aliveFields fs k) vs bs ∧
      (offsetTable bs ++ bs.flatten).length < 2 ^ 32 ∧
      walkStruct cfg h fs (b ++ t) =
        .ok (.indexed (offsetTable bs ++ bs.flatten) (aliveCount fs h.length), t) := by
  have hfit := hh.fits
  have hmem : lastEntry (h.take k) ∈ h := List.mem_of_getElem? (hh.lastEntry_take h1 h2)
  have hrev : (lastEntry (h.take k)).revision = k := by
    have := hh.revision_get (hh.lastEntry_take h1 h2)
    omega
  have hkt := (hh.take h1 h2).latest_eq
  rw [List.length_take, Nat.min_eq_left h2] at hkt
  unfold structC at hv hb
  simp only [hkt] at hv hb
  generalize lastEntry (h.take k) = e at *
  subst hrev
  obtain ⟨body, hbody, hb'⟩ := Res.bind_eq_ok.1 hb
  cases hb'
  rw [serializeStructBody_asOf e (by omega)] at hbody
  rw [validFields_asOf (by omega), validFields_iff] at hv
  obtain ⟨bs, hbs⟩ := serializeStructBody_ok e fs vs body hv.length_eq hbody
  rw [serializeStructBody_encodes e fs vs bs hbs] at hbody
  unfold structLayout structPayload at hbody
  simp only [ho, hi, true_and, if_true] at hbody
  split at hbody
  · cases hbody
  rename_i hlt
  cases hbody
  have hwire : (fun f : FieldDecl V => f.wire e) = fun f => f.optimisedC := by
    funext f; simp [FieldDecl.wire, ho]
  rw [hwire] at hv hbs
  refine ⟨bs, hv, hbs, by omega, ?_⟩
  have hw := walkStruct_direct cfg hh hmem hc (fs := fs) (readU16_encU16 cfg (by omega)
    (leBytes 4 (offsetTable bs ++ bs.flatten).length ++ ((offsetTable bs ++ bs.flatten) ++ t)))
  simp only [ho, hi, if_true] at hw
  rw [Rd.bind_of_ok (readVarlenLen_append _ (by omega) _), Rd.bind_of_ok (readBorrowed_append _ t rfl)] at hw
  rw [List.append_assoc, List.append_assoc]
  exact hw

/-- Data written at a revision with the indexed encoding, followed by anything.

Missing from the full property: a field added since the data was written
(`C57_older_indexed_false`), and fields with `indexed_*` (`C57_indexed_field_false`). -/
theorem C57_indexed_partial (cfg : Cfg) (h : List Entry) (hh : ValidHistory h) (fs : List (FieldDecl V))
    (hec : EndsConverted fs) (k : Nat) (h1 : 1 ≤ k) (h2 : k ≤ h.length)
    (ho : (lastEntry (h.take k)).optimised = true) (hi : (lastEntry (h.take k)).indexedStruct = true)
    (hc : NotConverted h fs k) (hn : DistinctNames fs k h.length)
    (hf : ∀ f ∈ fs, f.existsAt k = true → (f.wire (lastEntry (h.take k))).Faithful)
    (hx : ∀ f ∈ fs, f.existsAt h.length = true → f.existsAt k = true ∧ f.isIndexed = false)
    (vs : List V) (b t : Bytes)
    (hv : (structC cfg (h.take k) (fieldsAsOf k fs)).valid vs)
    (hb : (structC cfg (h.take k) (fieldsAsOf k fs)).enc vs = .ok b) :
    walkAndDecode cfg h fs (b ++ t) = (structC cfg h fs).dec (b ++ t) := by
  have hfit := hh.fits
  have hk := hec.noneRemoved hc h2 (by omega)
  have hsame : ∀ f ∈ fs, f.existsAt k = f.existsAt h.length := by
    intro f hfm
    cases ha : f.existsAt k with
    | true => exact (hk f hfm ha).symm
    | false =>
      cases hb : f.existsAt h.length with
      | false => rfl
      | true => rw [(hx f hfm hb).1] at ha; cases ha
  rw [C50_migrates_partial cfg h hh fs k h1 h2 hf hn
    (fun f hfm ha hb => by rw [hk f hfm ha] at hb; cases hb) vs b t hv hb]
  obtain ⟨bs, hval, henc, hlt, hw⟩ := walkStruct_indexed cfg h hh fs k h1 h2 ho hi hc vs b t hv hb
  have hal : aliveFields fs k = aliveFields fs h.length := List.filter_congr hsame
  rw [migrate_of_same fs vs (fun f hfm => (hsame f hfm).symm) hval]
  rw [hal] at hval henc
  unfold walkAndDecode
  rw [Rd.bind_of_ok hw]
  refine decodeEach_indexed ?_ hval henc hlt t _ 0 (Nat.zero_add _)
  intro f hfm v b hv hb t
  obtain ⟨hfm, ha⟩ := List.mem_filter.1 hfm
  obtain ⟨ha, hni⟩ := hx f hfm ha
  have := (hf f hfm ha).round_trip
  simp only [FieldDecl.wire, ho, if_true, FieldDecl.optimisedC, hni, Bool.false_eq_true, if_false] at this hv hb
  exact this v b hv hb t

theorem addedFields_live2 : (∀ f ∈ addedFields, f.isIndexed = false) ∧
    (∀ f ∈ addedFields, f.existsAt 2 = true) ∧ DistinctNames addedFields 2 2 := by
  refine ⟨?_, ?_, ?_⟩
  · intro f hf
    simp only [addedFields, List.mem_cons, List.not_mem_nil, or_false] at hf
    rcases hf with rfl | rfl <;> rfl
  · intro f hf
    simp only [addedFields, List.mem_cons, List.not_mem_nil, or_false] at hf
    rcases hf with rfl | rfl <;> rfl
  · simp [DistinctNames, addedFields, u32Field, tyField, FieldDecl.existsAt, existsAt]

example (t : Bytes) :
    walkAndDecode .default [⟨1, false, false⟩, ⟨2, true, true⟩] addedFields
        ([2, 12, 0, 0, 0, 8, 0, 0, 0, 9, 0, 0, 0, 7, 251, 44, 1] ++ t) =
      (structC .default [⟨1, false, false⟩, ⟨2, true, true⟩] addedFields).dec
        ([2, 12, 0, 0, 0, 8, 0, 0, 0, 9, 0, 0, 0, 7, 251, 44, 1] ++ t) :=
  C57_indexed_partial .default [⟨1, false, false⟩, ⟨2, true, true⟩] ⟨by decide, by decide, by decide⟩ addedFields
    addedFields_ok.1 2 (by decide) (by decide) rfl rfl (.inl rfl) addedFields_live2.2.2
    (fun f hf _ => addedFields_faithful f hf _)
    (fun f hf _ => ⟨addedFields_live2.2.1 f hf, addedFields_live2.1 f hf⟩)
    [DV.u32 7, DV.u32 300] _ t ⟨⟨_, rfl, trivial⟩, ⟨_, rfl, trivial⟩, rfl⟩ rfl

/-- A record `{ a: 7, b: 300 }` of the current revision, indexed. -/
example : (structC .default [⟨1, false, false⟩, ⟨2, true, true⟩] addedFields).enc [DV.u32 7, DV.u32 300] =
      .ok [2, 12, 0, 0, 0, 8, 0, 0, 0, 9, 0, 0, 0, 7, 251, 44, 1] ∧
    walkAndDecode .default [⟨1, false, false⟩, ⟨2, true, true⟩] addedFields
      [2, 12, 0, 0, 0, 8, 0, 0, 0, 9, 0, 0, 0, 7, 251, 44, 1, 99] = .ok ([DV.u32 7, DV.u32 300], [99]) := ⟨rfl, rfl⟩

/-- Data of an older revision of a type with convert functions: the walker holds the value converted
to the current revision.  The convert functions are taken to give values that can be written.

Missing from the full property: a current revision with an optimised encoding
(`C57_converted_false`), and fields with `fixed` or `specialised`. -/
theorem C57_converted_partial (cfg : Cfg) (h : List Entry) (hh : ValidHistory h) (fs : List (FieldDecl V))
    (k : Nat) (h1 : 1 ≤ k) (h2 : k < h.length) (hcv : structHasConvert fs = true)
    (hn : DistinctNames fs k h.length)
    (hf : ∀ f ∈ fs, f.existsAt k = true → (f.wire (lastEntry (h.take k))).Faithful)
    (hx : ∀ f ∈ fs, f.existsAt k = true → f.existsAt h.length = false →
      (lastEntry (h.take k)).optimised = true → f.isIndexed = false)
    (ho : (lastEntry h).optimised = false)
    (hp : ∀ f ∈ fs, f.existsAt h.length = true →
      f.plain.Faithful ∧ f.opts.fixed = false ∧ f.opts.specialised = false)
    (vs : List V) (b t : Bytes)
    (hv : (structC cfg (h.take k) (fieldsAsOf k fs)).valid vs)
    (hb : (structC cfg (h.take k) (fieldsAsOf k fs)).enc vs = .ok b)
    (hm : ∀ new, migrate k h.length fs vs = .ok new →
      (structC cfg h fs).valid new ∧ ∃ b', (structC cfg h fs).enc new = .ok b') :
    walkAndDecode cfg h fs (b ++ t) = (structC cfg h fs).dec (b ++ t) := by
  have hfit := hh.fits
  have hmem : lastEntry (h.take k) ∈ h := List.mem_of_getElem? (hh.lastEntry_take h1 (by omega))
  have hrev : (lastEntry (h.take k)).revision = k := by
    have := hh.revision_get (hh.lastEntry_take h1 (by omega : k ≤ h.length))
    omega
  have hkt := (hh.take h1 (by omega : k ≤ h.length)).latest_eq
  rw [List.length_take, Nat.min_eq_left (by omega)] at hkt
  have hdec := C50_migrates_partial cfg h hh fs k h1 (by omega) hf hn hx vs b t hv hb
  rw [hdec]
  obtain ⟨body, -, hb'⟩ := Res.bind_eq_ok.1 hb
  cases hb'
  rw [hkt, List.append_assoc] at hdec ⊢
  unfold structC at hdec
  simp only [hh.latest_eq] at hdec
  rw [← hrev, dispatch_hit cfg hh hmem] at hdec
  rw [hrev] at hdec
  unfold walkAndDecode walkStruct
  simp only [Rd.bind_assoc]
  rw [Rd.bind_of_ok (readU16_encU16 cfg (by omega) _), hh.latest_eq, if_neg (by omega)]
  have hg : (structHasConvert fs && k != h.length) = true := by simp [hcv]; omega
  have haft := afterHeader_hit hh hmem (fun e => deserializeStructBody e h.length fs)
  rw [hrev] at haft
  simp only [hg, if_true, haft, Rd.bind_assoc]
  cases hmig : migrate k h.length fs vs with
  | err e => rw [hmig] at hdec; rw [Rd.bind_of_err hdec]; rfl
  | panic => rw [hmig] at hdec; rw [Rd.bind_of_panic hdec]; rfl
  | ok new =>
    rw [hmig] at hdec
    rw [Rd.bind_of_ok hdec]
    obtain ⟨hvn, b', hbn⟩ := hm new hmig
    rw [hbn]
    unfold structC at hvn hbn
    simp only [hh.latest_eq] at hvn hbn
    obtain ⟨body', hbody, hb'⟩ := Res.bind_eq_ok.1 hbn
    cases hb'
    have hlr := hh.lastEntry_revision
    rw [validFields_iff] at hvn
    obtain ⟨bs, hbs⟩ := serializeStructBody_ok (lastEntry h) fs new body' (by rw [hlr]; exact hvn.length_eq) hbody
    rw [serializeStructBody_encodes _ fs new bs hbs] at hbody
    unfold structLayout at hbody
    simp only [ho, Bool.false_eq_true, false_and, if_false] at hbody
    cases hbody
    rw [hlr] at hbs
    have hwire : ∀ f ∈ aliveFields fs h.length, f.wire (lastEntry h) = f.plain := by
      intro f hfm
      obtain ⟨hfm, ha⟩ := List.mem_filter.1 hfm
      have := hp f hfm ha
      simp [FieldDecl.wire, ho, FieldDecl.legacyC, this.2.1, this.2.2]
    have hread : ∀ f ∈ aliveFields fs h.length,
        ReadsBack (fun f => f.wire (lastEntry h)) (fun f => f.plain.dec) f := by
      intro f hfm v b hv hb t
      simp only [hwire f hfm] at hv hb
      obtain ⟨hfm, ha⟩ := List.mem_filter.1 hfm
      exact (hp f hfm ha).1.round_trip v b hv hb t
    have := decodeEach_converted hvn hbs hread 0 (encU16 cfg h.length) t
    simp only [Rd.lift_ok, Rd.pure_bind, readU16_encU16 cfg (show h.length < 2 ^ 16 by omega) bs.flatten]
    rw [List.length_append, Nat.add_sub_cancel]
    exact this

example (t : Bytes) :
    walkAndDecode .default [⟨1, true, false⟩, ⟨2, false, false⟩] endedFields ([1, 2, 0, 0, 0, 7, 9] ++ t) =
      (structC .default [⟨1, true, false⟩, ⟨2, false, false⟩] endedFields).dec ([1, 2, 0, 0, 0, 7, 9] ++ t) := by
  refine C57_converted_partial .default [⟨1, true, false⟩, ⟨2, false, false⟩] ⟨by decide, by decide, by decide⟩
    endedFields 1 (by decide) (by decide) rfl ?_ (fun f hf _ => endedFields_faithful f hf _) ?_ rfl ?_
    [DV.u32 7, DV.u32 9] _ t ⟨⟨_, rfl, trivial⟩, ⟨_, rfl, trivial⟩, rfl⟩ rfl ?_
  · simp [DistinctNames, endedFields, u32Field, tyField, FieldDecl.existsAt, existsAt]
  · intro f hf _ _ _
    simp only [endedFields, List.mem_cons, List.not_mem_nil, or_false] at hf
    rcases hf with rfl | rfl <;> rfl
  · intro f hf _
    have := endedFields_faithful f hf ⟨1, false, false⟩
    simp only [endedFields, List.mem_cons, List.not_mem_nil, or_false] at hf
    rcases hf with rfl | rfl <;> exact ⟨this, rfl, rfl⟩
  · intro new hnew
    cases hnew
    exact ⟨⟨⟨_, rfl, trivial⟩, rfl⟩, _, rfl⟩

/-- A revision-1 record `{ a: 7, gone: 9 }`, optimised, walked at revision 2, legacy. -/
example : structHasConvert endedFields = true ∧
    migrate 1 2 endedFields [DV.u32 7, DV.u32 9] = .ok [DV.u32 10] ∧
    (structC .default [⟨1, true, true⟩, ⟨2, false, false⟩] endedFields).enc [DV.u32 10] = .ok [2, 10] ∧
    walkAndDecode .default [⟨1, true, false⟩, ⟨2, false, false⟩] endedFields [1, 2, 0, 0, 0, 7, 9, 99] =
      .ok ([DV.u32 10], [99]) := ⟨rfl, rfl, rfl, rfl⟩

/-! ### Where walking and deserialising differ -/

/-- A `u32` field with `fixed` at a legacy revision is written as four bytes; the walker reads a
variable-length integer and hands out the rest of it as the next field. -/
theorem C57_fixed_false :
    ∃ (h : List Entry) (fs : List (FieldDecl DV)) (vs : List DV) (b : Bytes),
      ValidHistory h ∧ (structC .default h fs).valid vs ∧ (structC .default h fs).enc vs = .ok b ∧
      (structC .default h fs).dec b = .ok ([DV.u32 5, DV.u32 7], []) ∧
      walkAndDecode .default h fs b = .ok ([DV.u32 5, DV.u32 0], [0, 0, 7]) :=
  ⟨[⟨1, false, false⟩], [u32Field .default "a" { fixed := true }, u32Field .default "b" {}],
    [DV.u32 5, DV.u32 7], [1, 5, 0, 0, 0, 7], ⟨by decide, by decide, by decide⟩,
    ⟨⟨_, rfl, trivial⟩, ⟨_, rfl, trivial⟩, rfl⟩, rfl, rfl, rfl⟩

/-- A field with `indexed_seq` at a legacy revision is written plain; the walker reads it as indexed
and fails. -/
theorem C57_legacy_indexed_false :
    ∃ (h : List Entry) (fs : List (FieldDecl DV)) (vs : List DV) (b : Bytes),
      ValidHistory h ∧ (structC .default h fs).enc vs = .ok b ∧
      (structC .default h fs).dec b = .ok (vs, []) ∧
      ∃ x, walkAndDecode .default h fs b = .err x :=
  ⟨[⟨1, false, false⟩], [u32sField .default "l" { indexedSeq := true }],
    [DV.u32s [5]], [1, 1, 5, 0, 0, 0], ⟨by decide, by decide, by decide⟩, rfl, rfl, _, rfl⟩

/-- In an indexed struct a field with `indexed_seq` is written indexed; the walker reads it as a plain
list and gives an empty one. -/
theorem C57_indexed_field_false :
    ∃ (h : List Entry) (fs : List (FieldDecl DV)) (vs : List DV) (b : Bytes),
      ValidHistory h ∧ (structC .default h fs).valid vs ∧ (structC .default h fs).enc vs = .ok b ∧
      (structC .default h fs).dec b = .ok ([DV.u32s [5]], []) ∧
      walkAndDecode .default h fs b = .ok ([DV.u32s []], []) :=
  ⟨[⟨1, true, true⟩], [u32sField .default "l" { indexedSeq := true }], [DV.u32s [5]],
    [1, 7, 0, 0, 0, 4, 0, 0, 0, 0, 1, 5], ⟨by decide, by decide, by decide⟩,
    ⟨⟨_, rfl, demo_list_valid⟩, rfl⟩, rfl, rfl, rfl⟩

/-- A struct that was already indexed when a field was added: the walker takes the offset table of
the older data for one of the current revision, and panics on valid data. -/
theorem C57_older_indexed_false :
    ∃ (h : List Entry) (fs : List (FieldDecl DV)) (vs : List DV) (b : Bytes),
      ValidHistory h ∧ (structC .default (h.take 1) (fieldsAsOf 1 fs)).valid vs ∧
      (structC .default (h.take 1) (fieldsAsOf 1 fs)).enc vs = .ok b ∧
      (structC .default h fs).dec b = .ok ([DV.u32 7, DV.u32 1], []) ∧
      walkAndDecode .default h fs b = .panic :=
  ⟨[⟨1, true, true⟩, ⟨2, true, true⟩],
    [u32Field .default "a" {}, u32Field .default "b" { start := some 2, default := some "…" }],
    [DV.u32 7], [1, 5, 0, 0, 0, 4, 0, 0, 0, 7], ⟨by decide, by decide, by decide⟩,
    ⟨⟨_, rfl, trivial⟩, rfl⟩, rfl, rfl, rfl⟩

/-- Data of an older revision of a type with a convert function whose current revision is optimised:
the walker hands out the length of the converted record as the first field. -/
theorem C57_converted_false :
    ∃ (h : List Entry) (fs : List (FieldDecl DV)) (vs : List DV) (b : Bytes),
      ValidHistory h ∧ (structC .default (h.take 1) (fieldsAsOf 1 fs)).valid vs ∧
      (structC .default (h.take 1) (fieldsAsOf 1 fs)).enc vs = .ok b ∧
      (structC .default h fs).dec b = .ok ([DV.u32 10], []) ∧
      walkAndDecode .default h fs b = .ok ([DV.u32 1], []) :=
  ⟨[⟨1, false, false⟩, ⟨2, true, false⟩],
    [u32Field .default "a" {}, u32Field .default "gone" { stop := some 2, convert := some "…" }],
    [DV.u32 7, DV.u32 9], [1, 7, 9], ⟨by decide, by decide, by decide⟩,
    ⟨⟨_, rfl, trivial⟩, ⟨_, rfl, trivial⟩, rfl⟩, rfl, rfl, rfl⟩

/-! ## C58 Random access to an indexed struct -/

/-- On the walker of data written at an indexed revision any calls of `decode_<field>` and
`skip_<field>`, in any order and repeated at will, succeed; a decode gives the field's value, and the
source reader stays behind the whole record.

Missing from the full property: fields with `indexed_*` (`C57_indexed_field_false`) and data older
than the last added field (`C57_older_indexed_false`). -/
theorem C58_any_order_partial (cfg : Cfg) (h : List Entry) (hh : ValidHistory h) (fs : List (FieldDecl V))
    (k : Nat) (h1 : 1 ≤ k) (h2 : k ≤ h.length)
    (ho : (lastEntry (h.take k)).optimised = true) (hi : (lastEntry (h.take k)).indexedStruct = true)
    (hc : NotConverted h fs k) (hsame : aliveFields fs k = aliveFields fs h.length)
    (hf : ∀ f ∈ aliveFields fs k, (f.wire (lastEntry (h.take k))).Faithful ∧ f.isIndexed = false)
    (vs : List V) (b t : Bytes)
    (hv : (structC cfg (h.take k) (fieldsAsOf k fs)).valid vs)
    (hb : (structC cfg (h.take k) (fieldsAsOf k fs)).enc vs = .ok b)
    (calls : List FieldCall) (hcalls : ∀ c ∈ calls, c.idx < vs.length) :
    (walkStruct cfg h fs >>= runCalls (aliveFields fs h.length) calls) (b ++ t) =
      .ok (calls.map (FieldCall.answer vs), t) := by
  obtain ⟨bs, hval, henc, hlt, hw⟩ := walkStruct_indexed cfg h hh fs k h1 h2 ho hi hc vs b t hv hb
  rw [Rd.bind_of_ok hw]
  rw [hsame] at hval henc
  have hl := hval.length_eq
  have hrt : ∀ f ∈ aliveFields fs h.length, ReadsBack (fun f => f.optimisedC) (fun f => f.plain.dec) f := by
    intro f hfm v b hv hb t
    rw [← hsame] at hfm
    obtain ⟨hff, hni⟩ := hf f hfm
    have := hff.round_trip
    simp only [FieldDecl.wire, ho, if_true, FieldDecl.optimisedC, hni, Bool.false_eq_true, if_false] at this hv hb
    exact this v b hv hb t
  show runCalls _ calls (.indexed _ (aliveFields fs h.length).length) t = _
  induction calls with
  | nil => rfl
  | cons c cs ih =>
    have ih := ih (fun c hc => hcalls c (List.mem_cons_of_mem _ hc))
    have hci := hcalls c List.mem_cons_self
    cases c with
    | decode i =>
      have hi' : i < (aliveFields fs h.length).length := by simp only [FieldCall.idx] at hci; omega
      simp only [FieldCall.idx] at hci
      unfold runCalls
      simp only [List.getElem?_eq_getElem hi']
      rw [Rd.bind_of_ok (decodeField_indexed hrt hval henc hlt i hi' hci t)]
      simp only
      rw [Rd.bind_of_ok ih]
      simp [FieldCall.answer, List.getElem?_eq_getElem hci]
    | skip i =>
      have hi' : i < (aliveFields fs h.length).length := by simp only [FieldCall.idx] at hci; omega
      unfold runCalls
      simp only [List.getElem?_eq_getElem hi', StructRepr.skipField, Rd.pure_bind]
      rw [Rd.bind_of_ok ih]
      rfl

example (t : Bytes) (calls : List FieldCall) (hcalls : ∀ c ∈ calls, c.idx < 2) :
    (walkStruct .default [⟨1, false, false⟩, ⟨2, true, true⟩] addedFields >>=
        runCalls (aliveFields addedFields 2) calls) ([2, 12, 0, 0, 0, 8, 0, 0, 0, 9, 0, 0, 0, 7, 251, 44, 1] ++ t) =
      .ok (calls.map (FieldCall.answer [DV.u32 7, DV.u32 300]), t) :=
  C58_any_order_partial .default [⟨1, false, false⟩, ⟨2, true, true⟩] ⟨by decide, by decide, by decide⟩ addedFields
    2 (by decide) (by decide) rfl rfl (.inl rfl) rfl
    (fun f hf => ⟨addedFields_faithful f (List.mem_filter.1 hf).1 _, addedFields_live2.1 f (List.mem_filter.1 hf).1⟩)
    [DV.u32 7, DV.u32 300] _ t ⟨⟨_, rfl, trivial⟩, ⟨_, rfl, trivial⟩, rfl⟩ rfl calls hcalls

example : (walkStruct .default [⟨1, false, false⟩, ⟨2, true, true⟩] addedFields >>=
      runCalls (aliveFields addedFields 2) [.decode 1, .skip 0, .decode 0, .decode 1])
      [2, 12, 0, 0, 0, 8, 0, 0, 0, 9, 0, 0, 0, 7, 251, 44, 1, 99] =
    .ok ([some (DV.u32 300), none, some (DV.u32 7), some (DV.u32 300)], [99]) := rfl

/-- The bytes `into_<field>_bytes` gives for any field, and the view `walk_<field>` gives for an
`indexed_*` one, are the field's encoding as written, no more and no less. -/
theorem C58_field_bytes_partial (cfg : Cfg) (h : List Entry) (hh : ValidHistory h) (fs : List (FieldDecl V))
    (k : Nat) (h1 : 1 ≤ k) (h2 : k ≤ h.length)
    (ho : (lastEntry (h.take k)).optimised = true) (hi : (lastEntry (h.take k)).indexedStruct = true)
    (hc : NotConverted h fs k) (hsame : aliveFields fs k = aliveFields fs h.length)
    (vs : List V) (b t : Bytes)
    (hv : (structC cfg (h.take k) (fieldsAsOf k fs)).valid vs)
    (hb : (structC cfg (h.take k) (fieldsAsOf k fs)).enc vs = .ok b)
    (i : Nat) (f : FieldDecl V) (v : V) (hfi : (aliveFields fs h.length)[i]? = some f) (hvi : vs[i]? = some v) :
    ∃ x, f.optimisedC.enc v = .ok x ∧
      (walkStruct cfg h fs >>= fun w => w.intoFieldBytes i f) (b ++ t) = .ok (x, t) ∧
      (walkStruct cfg h fs >>= fun w => w.viewField i f) (b ++ t) = .ok (x, t) := by
  obtain ⟨bs, hval, henc, hlt, hw⟩ := walkStruct_indexed cfg h hh fs k h1 h2 ho hi hc vs b t hv hb
  rw [hsame] at hval henc
  have hl := henc.length_eq
  obtain ⟨hif, rfl⟩ := List.getElem?_eq_some_iff.1 hfi
  obtain ⟨hiv, rfl⟩ := List.getElem?_eq_some_iff.1 hvi
  have hib : i < bs.length := by omega
  refine ⟨bs[i], henc.get i hif hiv hib, ?_, ?_⟩
  · rw [Rd.bind_of_ok hw]
    have := checkedFieldSlice_run bs hlt hib
    rw [hl.2] at this
    show Rd.lift (StructRepr.checkedFieldSlice _ (aliveFields fs h.length).length i) t = _
    rw [this]; rfl
  · rw [Rd.bind_of_ok hw]
    have := fieldSlice_run bs hlt hib
    rw [hl.2] at this
    show Rd.lift (StructRepr.fieldSlice _ (aliveFields fs h.length).length i) t = _
    rw [this]; rfl

example (t : Bytes) : ∃ x, (u32sField .default "list" {}).indexed.enc (DV.u32s [5]) = .ok x ∧
    (walkStruct .default demoHistory (demoFields .default) >>= fun w => w.viewField 2 (demoFields .default)[3])
      ([3] ++ structLayout ⟨3, true, true⟩ [[7], [251, 44, 1], [0, 1, 5]] ++ t) = .ok (x, t) := by
  obtain ⟨x, h1, -, h3⟩ := C58_field_bytes_partial .default demoHistory demoHistory_valid (demoFields .default) 3
    (by decide) (by decide) rfl rfl (.inr rfl) rfl [DV.u32 7, DV.u32 300, DV.u32s [5]] _ t
    ⟨⟨_, rfl, trivial⟩, ⟨_, rfl, trivial⟩, ⟨_, rfl, demo_list_valid⟩, rfl⟩ rfl 2 (demoFields .default)[3] (DV.u32s [5])
    rfl rfl
  exact ⟨x, h1, h3⟩

/-- In the demonstration's record the list field, `indexed_seq`, is at `[0, 1, 5]`. -/
example : (walkStruct .default demoHistory (demoFields .default) >>= fun w =>
      w.viewField 2 (u32sField .default "list" { start := some 3, specialised := true, indexedSeq := true }))
      ([3] ++ leBytes 4 19 ++ (leBytes 4 12 ++ leBytes 4 13 ++ leBytes 4 16) ++ [7] ++ [251, 44, 1] ++ [0, 1, 5]) =
    .ok ([0, 1, 5], []) := rfl

/-! ## C51 Unknown revisions are refused -/

/-- Walking a struct whose header is not one of the type's revisions fails with the deserialisation error. -/
theorem C51_unknown_revision_walk (cfg : Cfg) (h : List Entry) (hh : ValidHistory h) (fs : List (FieldDecl V)) (s r t)
    (hs : readU16 cfg s = .ok (r, t)) (hr : r = 0 ∨ h.length < r) : walkStruct cfg h fs s = .err .deserialize := by
  unfold walkStruct
  rw [Rd.bind_of_ok hs, if_pos (by rw [hh.latest_eq]; exact hr)]
  rfl

example : walkStruct .default demoHistory (demoFields .default) [4, 1, 2] = .err .deserialize ∧
    walkStruct .default demoHistory (demoFields .default) [0] = .err .deserialize :=
  ⟨C51_unknown_revision_walk .default demoHistory (by exact ⟨by decide, by decide, by decide⟩) _ _ 4 [1, 2] rfl (.inr (by decide)),
    C51_unknown_revision_walk .default demoHistory (by exact ⟨by decide, by decide, by decide⟩) _ _ 0 [] rfl (.inl rfl)⟩

end Revision
