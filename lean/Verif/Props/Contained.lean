import Verif.Spec.Contained
import Verif.Props.Derive
import Verif.Props.DeriveEnum
import Verif.Props.DerivePanic
import Verif.Props.Log

/-! # C128: damage inside an optimised record stays there -/

namespace Revision

variable {V : Type}

theorem DamagedAfter.split {a p b' : Bytes} (h : DamagedAfter a.length (a ++ p) b') :
    ∃ p', b' = a ++ p' ∧ p'.length = p.length := by
  obtain ⟨h1, h2⟩ := h
  rw [List.take_left] at h2
  refine ⟨b'.drop a.length, ?_, ?_⟩
  · conv => lhs; rw [← List.take_append_drop a.length b', h2]
  · have := List.length_append (as := a) (bs := p)
    rw [List.length_drop]
    omega

theorem consume_append (p t : Bytes) : Rd.consume p.length (p ++ t) = .ok ((), t) := by
  show (if p.length > (p ++ t).length then Res.err Err.io else .ok ((), (p ++ t).drop p.length)) = _
  rw [if_neg (by rw [List.length_append]; omega), List.drop_left]

theorem advance_append (p t : Bytes) : Rd.advance p.length (p ++ t) = .ok ((), t) :=
  advance_ok_iff.2 ⟨p, rfl, rfl⟩

/-- What an optimised struct looks like. -/
theorem struct_written (cfg : Cfg) {h : List Entry} (hh : ValidHistory h) (fs : List (FieldDecl V))
    (ho : (lastEntry h).optimised = true) {vs : List V} {b : Bytes} (hb : (structC cfg h fs).enc vs = .ok b) :
    ∃ p, p.length < 2 ^ 32 ∧ b = encU16 cfg h.length ++ leBytes 4 p.length ++ p := by
  obtain ⟨body, h1, h2⟩ := Res.bind_eq_ok.1 hb
  rw [hh.latest_eq] at h2
  have key : ∀ scratch : Bytes, lengthPrefixed scratch = .ok body →
      ∃ p, p.length < 2 ^ 32 ∧ b = encU16 cfg h.length ++ leBytes 4 p.length ++ p := by
    intro scratch hs
    unfold lengthPrefixed at hs
    split at hs
    · rename_i hlt
      cases hs
      cases h2
      exact ⟨scratch, hlt, by rw [List.append_assoc]⟩
    · cases hs
  unfold serializeStructBody at h1
  simp only [if_pos ho] at h1
  split at h1
  · obtain ⟨q, -, h4⟩ := Res.bind_eq_ok.1 h1
    exact key _ h4
  · obtain ⟨q, -, h4⟩ := Res.bind_eq_ok.1 h1
    exact key _ h4

/-- **C128** (structs).  A record was written at an optimised revision, and its payload overwritten with any
other bytes: the current version skips to what follows, with either skip; what comes of decoding or checking
it does not depend on what follows, and what follows is left. -/
theorem C128_struct (cfg : Cfg) (h : List Entry) (hh : ValidHistory h) (fs : List (FieldDecl V))
    (k : Nat) (h1 : 1 ≤ k) (h2 : k ≤ h.length) (ho : (lastEntry (h.take k)).optimised = true)
    (vs : List V) (b b' : Bytes) (hb : (structC cfg (h.take k) (fieldsAsOf k fs)).enc vs = .ok b)
    (hd : DamagedAfter (structEnvelope cfg k) b b') :
    (∀ t, (structC cfg h fs).skip (b' ++ t) = .ok ((), t) ∧ (structC cfg h fs).skipS (b' ++ t) = .ok ((), t)) ∧
      (structC cfg h fs).dec.Contained b' ∧ (structC cfg h fs).check.Contained b' := by
  have hmem : lastEntry (h.take k) ∈ h := List.mem_of_getElem? (hh.lastEntry_take h1 h2)
  have hrev : (lastEntry (h.take k)).revision = k := by
    have := hh.revision_get (hh.lastEntry_take h1 h2)
    omega
  obtain ⟨p, hp, rfl⟩ := struct_written cfg (hh.take h1 h2) _ ho hb
  have hl : (h.take k).length = k := by rw [List.length_take, Nat.min_eq_left h2]
  rw [hl] at hd
  have hn : structEnvelope cfg k = (encU16 cfg k ++ leBytes 4 p.length).length := by
    rw [List.length_append, leBytes_length]
    rfl
  rw [hn] at hd
  obtain ⟨p', rfl, hp'⟩ := hd.split
  rw [← hp'] at hp ⊢
  generalize lastEntry (h.take k) = e at *
  subst hrev
  refine ⟨fun t => ?_, ?_⟩
  · rw [List.append_assoc, List.append_assoc]
    refine ⟨(dispatch_hit cfg hh hmem _ _).trans ?_, (dispatch_hit cfg hh hmem _ _).trans ?_⟩
    · unfold skipStructBody
      simp only [if_pos ho]
      rw [Rd.bind_of_ok (readVarlenLen_append _ hp _)]
      exact advance_append p' t
    · unfold skipSStructBody
      simp only [if_pos ho]
      rw [Rd.bind_of_ok (readVarlenLen_append _ hp _)]
      exact consume_append p' t
  · have main : (structC cfg h fs).dec.Contained (encU16 cfg e.revision ++ leBytes 4 p'.length ++ p') := by
      let body := decodeStructBody (fun f => (f.wire e).dec) (fun f => f.removedDec e) e.revision (latest h) fs
      let q : Res (List V) :=
        if e.indexedStruct then
          if p'.length < 4 * aliveCount fs e.revision then .err .overrun
          else body.within (p'.drop (4 * aliveCount fs e.revision))
        else body.within p'
      refine ⟨q, fun t => ?_⟩
      rw [List.append_assoc, List.append_assoc]
      refine (dispatch_hit cfg hh hmem _ _).trans ?_
      unfold deserializeStructBody
      simp only [if_pos ho]
      rw [← List.append_assoc, Rd.bind_of_ok (readLengthPrefixed_append _ hp _)]
      by_cases hi : e.indexedStruct
      · simp only [hi, if_true, q]
        split
        · rfl
        · exact lift_andRest _ t
      · simp only [hi, q]
        exact lift_andRest _ t
    refine ⟨main, ?_⟩
    obtain ⟨q, hq⟩ := main
    refine ⟨q.bind fun _ => .ok (), fun t => ?_⟩
    show (structC cfg h fs).dec.discard _ = _
    unfold Rd.discard
    cases q with
    | ok v => rw [Rd.bind_of_ok (hq t)]; rfl
    | err e => rw [Rd.bind_of_err (hq t)]; rfl
    | panic => rw [Rd.bind_of_panic (hq t)]; rfl

/-- What an optimised enum looks like. -/
theorem enum_written (cfg : Cfg) {h : List Entry} (hh : ValidHistory h) (vs : List (VariantDecl V)) (k : Nat)
    (h1 : 1 ≤ k) (h2 : k ≤ h.length) (hA : AcceptedEnum (lastEntry (h.take k)) vs)
    (ho : (lastEntry (h.take k)).optimised = true) {x : EnumVal V} {b : Bytes}
    (hv : (enumC cfg (h.take k) (variantsAsOf k vs)).valid x)
    (hb : (enumC cfg (h.take k) (variantsAsOf k vs)).enc x = .ok b) :
    ∃ d v p, (d, v) ∈ variantArms vs k ∧ v.ident = x.variant ∧ SizeFits (v.opts.size.getD .inline) p ∧
      (v.opts.size.getD .inline = .varlen → p.length < 2 ^ 32) ∧
      b = encU16 cfg k ++
        Tag.new (UInt8.ofNat d) (v.opts.size.getD .inline).cls :: sizedPayload (v.opts.size.getD .inline) p := by
  have hrev : (lastEntry (h.take k)).revision = k := by
    have := hh.revision_get (hh.lastEntry_take h1 h2)
    omega
  have hkt := (hh.take h1 h2).latest_eq
  rw [List.length_take, Nat.min_eq_left h2] at hkt
  have hk64 : k < 2 ^ 64 - 1 := by have := hh.fits; omega
  unfold enumC at hv hb
  simp only [hkt] at hv hb
  generalize lastEntry (h.take k) = e at *
  subst hrev
  obtain ⟨body, hbody, hb'⟩ := Res.bind_eq_ok.1 hb
  cases hb'
  rw [serializeEnumBody_asOf cfg e hk64] at hbody
  rw [validEnum_asOf e hk64] at hv
  obtain ⟨d, v, hm, hi, hvf, hz⟩ := hv
  rcases x with ⟨n, xs⟩
  simp only at hi hvf
  subst hi
  rw [validFields_iff] at hvf
  obtain ⟨bs, hbs, hlt, rfl⟩ := (serializeEnumBody_ok cfg e vs hA d v hm xs hvf.length_eq body).1 hbody
  have hw : (fun f : FieldDecl V => f.variantWire e) = fun f => f.plain := by
    funext f; unfold FieldDecl.variantWire; rw [if_pos ho]
  rw [hw] at hbs
  refine ⟨d, v, bs.flatten, hm, rfl, ValidEnum.sizeFits (vs := vs) (x := ⟨v.ident, xs⟩) ho (hz ho) bs hbs, hlt ho, ?_⟩
  unfold enumLayout
  rw [if_pos ho]

/-- **C128** (enums).  The same for a record of an enum: behind the revision, the tag and, for a variant of
variable length, the length, its bytes may be overwritten with any others. -/
theorem C128_enum (cfg : Cfg) (h : List Entry) (hh : ValidHistory h) (vs : List (VariantDecl V))
    (k : Nat) (h1 : 1 ≤ k) (h2 : k ≤ h.length) (hA : AcceptedEnum (lastEntry (h.take k)) vs)
    (ho : (lastEntry (h.take k)).optimised = true) (x : EnumVal V) (b b' : Bytes)
    (hv : (enumC cfg (h.take k) (variantsAsOf k vs)).valid x)
    (hb : (enumC cfg (h.take k) (variantsAsOf k vs)).enc x = .ok b)
    (hd : ∀ v ∈ vs, v.existsAt k = true → v.ident = x.variant →
      DamagedAfter (enumEnvelope cfg k (v.opts.size.getD .inline)) b b') :
    (∀ t, (enumC cfg h vs).skip (b' ++ t) = .ok ((), t) ∧ (enumC cfg h vs).skipS (b' ++ t) = .ok ((), t)) ∧
      (enumC cfg h vs).dec.Contained b' ∧ (enumC cfg h vs).check.Contained b' := by
  have hmem : lastEntry (h.take k) ∈ h := List.mem_of_getElem? (hh.lastEntry_take h1 h2)
  have hrev : (lastEntry (h.take k)).revision = k := by
    have := hh.revision_get (hh.lastEntry_take h1 h2)
    omega
  obtain ⟨d, v, p, hm, hi, hsz, hlt, rfl⟩ := enum_written cfg hh vs k h1 h2 hA ho hv hb
  have hm' := mem_variantArms.1 hm
  have hd := hd v hm'.1 hm'.2.1 hi
  generalize lastEntry (h.take k) = e at *
  subst hrev
  have h32 := hA.disc_lt_32 ho hm
  obtain ⟨p', rfl, hsz', hlt'⟩ : ∃ p', b' = encU16 cfg e.revision ++
      Tag.new (UInt8.ofNat d) (v.opts.size.getD .inline).cls :: sizedPayload (v.opts.size.getD .inline) p' ∧
      SizeFits (v.opts.size.getD .inline) p' ∧ (v.opts.size.getD .inline = .varlen → p'.length < 2 ^ 32) := by
    revert hd hsz hlt
    generalize v.opts.size.getD .inline = size
    cases size with
    | inline =>
      intro hsz _ hd
      simp only [SizeFits] at hsz
      subst hsz
      have hn : enumEnvelope cfg e.revision .inline =
          (encU16 cfg e.revision ++ [Tag.new (UInt8.ofNat d) SizeClass.inline]).length := by
        rw [List.length_append]; rfl
      rw [hn] at hd
      have hd' : DamagedAfter (encU16 cfg e.revision ++ [Tag.new (UInt8.ofNat d) SizeClass.inline]).length
          ((encU16 cfg e.revision ++ [Tag.new (UInt8.ofNat d) SizeClass.inline]) ++ []) b' := by
        simpa [sizedPayload, VariantSize.cls] using hd
      obtain ⟨p', rfl, hp'⟩ := hd'.split
      have : p' = [] := List.length_eq_zero_iff.1 hp'
      subst this
      exact ⟨[], by simp [sizedPayload, VariantSize.cls], rfl, nofun⟩
    | fixed n =>
      intro hsz _ hd
      have hn : enumEnvelope cfg e.revision (.fixed n) =
          (encU16 cfg e.revision ++ [Tag.new (UInt8.ofNat d) SizeClass.fixed]).length := by
        rw [List.length_append]; rfl
      rw [hn] at hd
      have hd' : DamagedAfter (encU16 cfg e.revision ++ [Tag.new (UInt8.ofNat d) SizeClass.fixed]).length
          ((encU16 cfg e.revision ++ [Tag.new (UInt8.ofNat d) SizeClass.fixed]) ++ p) b' := by
        simpa [sizedPayload, VariantSize.cls] using hd
      obtain ⟨p', rfl, hp'⟩ := hd'.split
      exact ⟨p', by simp [sizedPayload, VariantSize.cls], hp'.trans hsz, nofun⟩
    | varlen =>
      intro _ hlt hd
      have hn : enumEnvelope cfg e.revision .varlen =
          (encU16 cfg e.revision ++ Tag.new (UInt8.ofNat d) SizeClass.varlen :: leBytes 4 p.length).length := by
        rw [List.length_append, List.length_cons, leBytes_length]; rfl
      rw [hn] at hd
      have hd' : DamagedAfter
          (encU16 cfg e.revision ++ Tag.new (UInt8.ofNat d) SizeClass.varlen :: leBytes 4 p.length).length
          ((encU16 cfg e.revision ++ Tag.new (UInt8.ofNat d) SizeClass.varlen :: leBytes 4 p.length) ++ p) b' := by
        simpa [sizedPayload, VariantSize.cls] using hd
      obtain ⟨p', rfl, hp'⟩ := hd'.split
      exact ⟨p', by simp [sizedPayload, VariantSize.cls, hp'], trivial, fun _ => by rw [hp']; exact hlt rfl⟩
  clear hd hb hsz hlt
  have hskip : ∀ {adv : Nat → Rd Unit} {skip : FieldDecl V → Rd Unit},
      (∀ p t : Bytes, adv p.length (p ++ t) = .ok ((), t)) → ∀ t,
      skipEnumBody cfg adv skip e (latest h) vs (Tag.new (UInt8.ofNat d) (v.opts.size.getD .inline).cls ::
        (sizedPayload (v.opts.size.getD .inline) p' ++ t)) = .ok ((), t) := by
    intro adv skip hadv t
    rw [skipEnum_known cfg e (latest h) vs hA ho (readOptimisedTag_new h32 _ _) hm (tag_variantId_new h32 _).symm rfl]
    revert hsz' hlt'
    simp only
    generalize v.opts.size.getD .inline = size
    cases size with
    | inline => exact fun _ _ => rfl
    | fixed n =>
      intro hsz' _
      have := hadv p' t
      rw [show p'.length = n from hsz'] at this
      exact this
    | varlen =>
      intro _ hlt'
      simp only [sizedPayload, List.append_assoc]
      rw [Rd.bind_of_ok (readVarlenLen_append _ (hlt' rfl) _)]
      exact hadv p' t
  refine ⟨fun t => ?_, ?_⟩
  · rw [List.append_assoc, List.cons_append]
    exact ⟨(dispatch_hit cfg hh hmem _ _).trans (hskip advance_append t),
      (dispatch_hit cfg hh hmem _ _).trans (hskip consume_append t)⟩
  · have main : (enumC cfg h vs).dec.Contained (encU16 cfg e.revision ++
        Tag.new (UInt8.ofNat d) (v.opts.size.getD .inline).cls :: sizedPayload (v.opts.size.getD .inline) p') := by
      refine ⟨do
        let fields ← (decodeAlive e.revision v.fields).within p'
        if v.existsAt (latest h) then pure ⟨v.ident, fields⟩ else v.convert fields e.revision, fun t => ?_⟩
      rw [List.append_assoc, List.cons_append]
      refine (dispatch_hit cfg hh hmem _ _).trans ?_
      unfold deserializeEnumBody
      simp only [if_pos ho]
      rw [Rd.bind_of_ok (readOptimisedTag_new h32 _ _)]
      simp only [tag_variantId_new h32]
      have hft := hA.find_tag ho hm
      simp only at hft
      rw [hft]
      simp only [decodeOptimisedVariant]
      rw [Rd.bind_of_ok (readSized_run _ p' t ?_)]
      · cases hq : (decodeAlive e.revision v.fields).within p' with
        | ok fields =>
          rw [Rd.bind_of_ok (a := fields) (r := t) rfl]
          show _ = Res.andRest (if v.existsAt (latest h) then .ok _ else _) t
          split
          · rfl
          · exact lift_andRest _ t
        | err e => rfl
        | panic => rfl
      · revert hsz' hlt'
        generalize v.opts.size.getD .inline = size
        cases size with
        | inline => exact fun h _ => h
        | fixed n => exact fun h _ => h
        | varlen => exact fun _ h => h rfl
    refine ⟨main, ?_⟩
    obtain ⟨q, hq⟩ := main
    refine ⟨q.bind fun _ => .ok (), fun t => ?_⟩
    show (enumC cfg h vs).dec.discard _ = _
    unfold Rd.discard
    cases q with
    | ok v => rw [Rd.bind_of_ok (hq t)]; rfl
    | err e => rw [Rd.bind_of_err (hq t)]; rfl
    | panic => rw [Rd.bind_of_panic (hq t)]; rfl

/-! ### Logs -/

/-- What a log needs of a record: undamaged, it is read; damaged, its extent is still known. -/
structure Salvageable (c : Codec α) (r : LogRecord α) : Prop where
  nonempty : r.stored ≠ []
  intact : r.stored = r.written → ∀ t, c.dec (r.stored ++ t) = .ok (r.current, t)
  damaged : r.stored ≠ r.written → (∀ t, c.skip (r.stored ++ t) = .ok ((), t)) ∧ c.dec.Contained r.stored

theorem salvages_of {c : Codec α} (hp : c.dec.NoPanic) : ∀ recs : List (LogRecord α), (∀ r ∈ recs, Salvageable c r) →
    ∃ as, Salvages c (recs.map LogRecord.stored).flatten as ∧ as.length = recs.length ∧
      ∀ (i : Nat) (r : LogRecord α), recs[i]? = some r → r.stored = r.written → as[i]? = some (some r.current) := by
  intro recs
  induction recs with
  | nil => exact fun _ => ⟨[], .atEnd, rfl, nofun⟩
  | cons r recs ih =>
    intro hr
    obtain ⟨as, h1, h2, h3⟩ := ih fun x hx => hr x (List.mem_cons_of_mem _ hx)
    have hs := hr r (List.mem_cons_self ..)
    have hne : r.stored ++ (recs.map LogRecord.stored).flatten ≠ [] := by
      intro hc
      exact hs.nonempty (List.append_eq_nil_iff.1 hc).1
    simp only [List.map_cons, List.flatten_cons]
    by_cases hw : r.stored = r.written
    · refine ⟨some r.current :: as, .next hne (hs.intact hw _) h1, by simp [h2], fun i x hi hx => ?_⟩
      cases i with
      | zero => cases hi; rfl
      | succ i => exact h3 i x hi hx
    · obtain ⟨hsk, q, hq⟩ := hs.damaged hw
      have hq' := hq (recs.map LogRecord.stored).flatten
      have key : ∀ a : Option α, ∀ (i : Nat) (x : LogRecord α), (r :: recs)[i]? = some x → x.stored = x.written →
          (a :: as)[i]? = some (some x.current) := by
        intro a i x hi hx
        cases i with
        | zero => cases hi; exact absurd hx hw
        | succ i => exact h3 i x hi hx
      cases q with
      | ok v => exact ⟨some v :: as, .next hne hq' h1, by simp [h2], key _⟩
      | err e => exact ⟨none :: as, .passed hne hq' (hsk _) h1, by simp [h2], key _⟩
      | panic => exact absurd hq' (hp _)

/-- **C128** (logs of structs).  A log of records written by any versions of a program, read one after the
other by the current version, skipping a record when it cannot be decoded.  Records written at optimised
revisions may have been overwritten behind the revision and the length.  Every record that has not been
is read, and at its place, whatever the damaged ones hold. -/
theorem C128_log_struct (cfg : Cfg) (h : List Entry) (hh : ValidHistory h) (fs : List (FieldDecl V))
    (hf : ∀ k, 1 ≤ k → k ≤ h.length → ∀ f ∈ fs, f.existsAt k = true → (f.wire (lastEntry (h.take k))).Faithful)
    (hn : ∀ k, 1 ≤ k → k ≤ h.length → DistinctNames fs k h.length)
    (hx : ∀ k, 1 ≤ k → k ≤ h.length → ∀ f ∈ fs, f.existsAt k = true → f.existsAt h.length = false →
      (lastEntry (h.take k)).optimised = true → f.isIndexed = false)
    (hs : ∀ f ∈ fs, f.Safe) (recs : List (LogRecord (List V)))
    (hr : ∀ r ∈ recs, 1 ≤ r.revision ∧ r.revision ≤ h.length ∧
      (structC cfg (h.take r.revision) (fieldsAsOf r.revision fs)).valid r.value ∧
      (structC cfg (h.take r.revision) (fieldsAsOf r.revision fs)).enc r.value = .ok r.written ∧
      migrate r.revision h.length fs r.value = .ok r.current ∧
      (r.stored = r.written ∨ (lastEntry (h.take r.revision)).optimised = true ∧
        DamagedAfter (structEnvelope cfg r.revision) r.written r.stored)) :
    ∃ answers, Salvages (structC cfg h fs) (recs.map LogRecord.stored).flatten answers ∧
      answers.length = recs.length ∧
      ∀ (i : Nat) (r : LogRecord (List V)), recs[i]? = some r → r.stored = r.written →
        answers[i]? = some (some r.current) := by
  refine salvages_of (C68_struct cfg h fs (fun e he => ?_) hs).dec recs fun r hmem => ?_
  · obtain ⟨i, hi⟩ := List.getElem?_of_mem he
    have := hh.revision_get hi
    have := (List.getElem?_eq_some_iff.1 hi).1
    rw [hh.latest_eq]
    exact hn _ (by omega) (by omega)
  · obtain ⟨h1, h2, hv, hb, hm, hd⟩ := hr r hmem
    refine ⟨?_, fun hw t => ?_, fun hw => ?_⟩
    · have hlen : r.stored.length = r.written.length := by
        rcases hd with hd | hd
        · rw [hd]
        · exact hd.2.1
      intro hc
      have hb0 : r.written = [] := List.length_eq_zero_iff.1 (by rw [← hlen, hc]; rfl)
      rw [hb0] at hb
      obtain ⟨body, _, hb'⟩ := Res.bind_eq_ok.1 hb
      exact encU16_ne_nil cfg _ (List.append_eq_nil_iff.1 (Res.ok.inj hb')).1
    · rw [hw, C50_migrates_partial cfg h hh fs r.revision h1 h2 (hf _ h1 h2) (hn _ h1 h2) (hx _ h1 h2) r.value
        r.written t hv hb, hm]
      rfl
    · obtain ⟨ho, hd⟩ := hd.resolve_left hw
      have := C128_struct cfg h hh fs r.revision h1 h2 ho r.value r.written r.stored hb hd
      exact ⟨fun t => (this.1 t).1, this.2.1⟩

/-- **C128** (logs of enums). -/
theorem C128_log_enum (cfg : Cfg) (h : List Entry) (hh : ValidHistory h) (vs : List (VariantDecl V))
    (hA : ∀ k, 1 ≤ k → k ≤ h.length → AcceptedEnum (lastEntry (h.take k)) vs)
    (hf : ∀ k, 1 ≤ k → k ≤ h.length → ∀ v ∈ vs, v.existsAt k = true → ∀ f ∈ v.fields, f.existsAt k = true →
      (f.variantWire (lastEntry (h.take k))).Faithful)
    (hn : ∀ k, 1 ≤ k → k ≤ h.length → ∀ v ∈ vs, DistinctNames v.fields k h.length)
    (hx : ∀ k, 1 ≤ k → k ≤ h.length → ∀ v ∈ vs, v.existsAt k = true →
      (lastEntry (h.take k)).optimised = true → ∀ f ∈ v.fields, f.existsAt h.length = f.existsAt k)
    (hs : ∀ v ∈ vs, v.Safe h.length) (recs : List (LogRecord (EnumVal V)))
    (hr : ∀ r ∈ recs, 1 ≤ r.revision ∧ r.revision ≤ h.length ∧
      (enumC cfg (h.take r.revision) (variantsAsOf r.revision vs)).valid r.value ∧
      (enumC cfg (h.take r.revision) (variantsAsOf r.revision vs)).enc r.value = .ok r.written ∧
      migrateEnum r.revision h.length vs r.value = .ok r.current ∧
      (r.stored = r.written ∨ (lastEntry (h.take r.revision)).optimised = true ∧
        ∀ v ∈ vs, v.existsAt r.revision = true → v.ident = r.value.variant →
          DamagedAfter (enumEnvelope cfg r.revision (v.opts.size.getD .inline)) r.written r.stored)) :
    ∃ answers, Salvages (enumC cfg h vs) (recs.map LogRecord.stored).flatten answers ∧
      answers.length = recs.length ∧
      ∀ (i : Nat) (r : LogRecord (EnumVal V)), recs[i]? = some r → r.stored = r.written →
        answers[i]? = some (some r.current) := by
  refine salvages_of (C68_enum cfg h vs (fun e he => ?_) (by rw [hh.latest_eq]; exact hs)).dec recs fun r hmem => ?_
  · obtain ⟨i, hi⟩ := List.getElem?_of_mem he
    have := hh.revision_get hi
    have := (List.getElem?_eq_some_iff.1 hi).1
    rw [hh.latest_eq]
    exact hn _ (by omega) (by omega)
  · obtain ⟨h1, h2, hv, hb, hm, hd⟩ := hr r hmem
    refine ⟨?_, fun hw t => ?_, fun hw => ?_⟩
    · have hlen : r.stored.length = r.written.length := by
        rcases hd with hd | ⟨ho, hd⟩
        · rw [hd]
        · obtain ⟨d, v, p, hm, hi, -⟩ := enum_written cfg hh vs r.revision h1 h2 (hA _ h1 h2) ho hv hb
          have hm' := mem_variantArms.1 hm
          exact (hd v hm'.1 hm'.2.1 hi).1
      intro hc
      have hb0 : r.written = [] := List.length_eq_zero_iff.1 (by rw [← hlen, hc]; rfl)
      rw [hb0] at hb
      obtain ⟨body, _, hb'⟩ := Res.bind_eq_ok.1 hb
      exact encU16_ne_nil cfg _ (List.append_eq_nil_iff.1 (Res.ok.inj hb')).1
    · rw [hw, C54_migrates_partial cfg h hh vs r.revision h1 h2 (hA _ h1 h2) (hf _ h1 h2)
        (fun v hv _ _ => hn _ h1 h2 v hv) (hx _ h1 h2) r.value r.written t hv hb, hm]
      rfl
    · obtain ⟨ho, hd⟩ := hd.resolve_left hw
      have := C128_enum cfg h hh vs r.revision h1 h2 (hA _ h1 h2) ho r.value r.written r.stored hv hb hd
      exact ⟨fun t => (this.1 t).1, this.2.1⟩

/-- Reading and skipping decide the answers. -/
theorem C128_salvage_unique (c : Codec α) (s : Bytes) (as bs : List (Option α)) (h1 : Salvages c s as)
    (h2 : Salvages c s bs) : as = bs := by
  induction h1 generalizing bs with
  | atEnd => cases h2 with
    | atEnd => rfl
    | next h => exact absurd rfl h
    | passed h => exact absurd rfl h
  | next hn hd _ ih => cases h2 with
    | atEnd => exact absurd rfl hn
    | next _ hd' h => rw [hd] at hd'; cases hd'; rw [ih _ h]
    | passed _ hd' => rw [hd] at hd'; cases hd'
  | passed hn hd hk _ ih => cases h2 with
    | atEnd => exact absurd rfl hn
    | next _ hd' => rw [hd] at hd'; cases hd'
    | passed _ _ hk' h => rw [hk] at hk'; cases hk'; rw [ih _ h]

/-! ### Witnesses -/

def safeHistory : List Entry := [⟨1, false, false⟩, ⟨2, true, true⟩]

theorem safeHistory_valid : ValidHistory safeHistory := ⟨by decide, by decide, by decide⟩

theorem safeFields_faithful (e : Entry) : ∀ f ∈ safeFields, (f.wire e).Faithful := by
  intro f hf
  have hE : demoEnv.unlimited.Lawful := ⟨demoEnv_lawful.ext, fun _ _ _ _ _ => rfl, demoEnv_lawful.trans⟩
  simp only [safeFields, List.mem_cons, List.not_mem_nil, or_false] at hf
  rcases hf with rfl | rfl <;> exact tyField_wire_faithful .default hE (fun e => nomatch e) _ _ _ _ _ _

/-- Three records of the log: revision 1, revision 2 damaged in its offsets and its payload, revision 2. -/
def safeLog : List (LogRecord (List (Dyn demoEnv.unlimited))) :=
  [⟨1, [⟨.int .u32, BitVec.ofNat 32 7⟩], [1, 7], [1, 7],
      [⟨.int .u32, BitVec.ofNat 32 7⟩, ⟨.vec .string, ([] : List String)⟩]⟩,
   ⟨2, [⟨.int .u32, BitVec.ofNat 32 9⟩, ⟨.vec .string, ([] : List String)⟩],
      [2, 11, 0, 0, 0, 8, 0, 0, 0, 9, 0, 0, 0, 9, 0, 0],
      [2, 11, 0, 0, 0, 255, 255, 255, 255, 255, 255, 255, 255, 255, 255, 255],
      [⟨.int .u32, BitVec.ofNat 32 9⟩, ⟨.vec .string, ([] : List String)⟩]⟩,
   ⟨2, [⟨.int .u32, BitVec.ofNat 32 5⟩, ⟨.vec .string, ([] : List String)⟩],
      [2, 11, 0, 0, 0, 8, 0, 0, 0, 9, 0, 0, 0, 5, 0, 0], [2, 11, 0, 0, 0, 8, 0, 0, 0, 9, 0, 0, 0, 5, 0, 0],
      [⟨.int .u32, BitVec.ofNat 32 5⟩, ⟨.vec .string, ([] : List String)⟩]⟩]

theorem safeLog_second :
    (∀ t, (structC .default safeHistory safeFields).skip
        ([2, 11, 0, 0, 0, 255, 255, 255, 255, 255, 255, 255, 255, 255, 255, 255] ++ t) = .ok ((), t) ∧
      (structC .default safeHistory safeFields).skipS
        ([2, 11, 0, 0, 0, 255, 255, 255, 255, 255, 255, 255, 255, 255, 255, 255] ++ t) = .ok ((), t)) ∧
    (structC .default safeHistory safeFields).dec.Contained
      [2, 11, 0, 0, 0, 255, 255, 255, 255, 255, 255, 255, 255, 255, 255, 255] := by
  have := C128_struct .default safeHistory safeHistory_valid safeFields 2 (by decide) (by decide) rfl
    [⟨.int .u32, BitVec.ofNat 32 9⟩, ⟨.vec .string, ([] : List String)⟩] _
    [2, 11, 0, 0, 0, 255, 255, 255, 255, 255, 255, 255, 255, 255, 255, 255] rfl ⟨rfl, rfl⟩
  exact ⟨this.1, this.2.1⟩

theorem safe_list_valid : (indexedSeqC (demoEnv.unlimited.cap .string) (Ty.string.codec .default demoEnv.unlimited)).valid
    ([] : List String) :=
  ⟨by decide, by decide, nofun, nofun⟩

example : ∃ answers, Salvages (structC .default safeHistory safeFields) (safeLog.map LogRecord.stored).flatten answers ∧
    answers.length = 3 ∧ answers[0]? = some (some safeLog[0].current) ∧ answers[2]? = some (some safeLog[2].current) := by
  obtain ⟨as, h1, h2, h3⟩ := C128_log_struct .default safeHistory safeHistory_valid safeFields
    (fun k _ _ f hf _ => safeFields_faithful _ f hf) (by
      intro k h1 h2
      have : k = 1 ∨ k = 2 := by have : safeHistory.length = 2 := rfl; omega
      rcases this with rfl | rfl <;>
        simp [safeHistory, safeFields, DistinctNames, tyField, FieldDecl.existsAt, existsAt])
    (by
      intro k _ _ f hf _ hl
      simp only [safeFields, List.mem_cons, List.not_mem_nil, or_false] at hf
      rcases hf with rfl | rfl <;> cases hl)
    safeFields_safe safeLog (by
      intro r hr
      simp only [safeLog, List.mem_cons, List.not_mem_nil, or_false] at hr
      rcases hr with rfl | rfl | rfl
      · exact ⟨by decide, by decide, ⟨⟨_, rfl, trivial⟩, rfl⟩, rfl, rfl, .inl rfl⟩
      · exact ⟨by decide, by decide, ⟨⟨_, rfl, trivial⟩, ⟨_, rfl, safe_list_valid⟩, rfl⟩, rfl, rfl, .inr ⟨rfl, rfl, rfl⟩⟩
      · exact ⟨by decide, by decide, ⟨⟨_, rfl, trivial⟩, ⟨_, rfl, safe_list_valid⟩, rfl⟩, rfl, rfl, .inl rfl⟩)
  exact ⟨as, h1, h2, h3 0 _ rfl rfl, h3 2 _ rfl rfl⟩

theorem demoEnum3_valid :
    (enumC .default (demoEnumHistory.take 3) (variantsAsOf 3 (demoVariants .default))).valid
      ⟨"B", [DV.u32 7, DV.u32 300]⟩ :=
  ⟨2, (variantsAsOf 3 (demoVariants .default))[2]'(by decide),
    by rw [mem_variantArms]; exact ⟨.tail _ (.tail _ (.head _)), rfl, rfl⟩, rfl,
    ⟨⟨_, rfl, trivial⟩, ⟨_, rfl, trivial⟩, rfl⟩, fun _ => trivial⟩

theorem demo_damage : ∀ v ∈ demoVariants .default, v.existsAt 3 = true → v.ident = "B" →
    DamagedAfter (enumEnvelope .default 3 (v.opts.size.getD .inline)) [3, 66, 4, 0, 0, 0, 7, 251, 44, 1]
      [3, 66, 4, 0, 0, 0, 255, 255, 255, 255] := by
  intro v hv _ hi
  simp only [demoVariants, List.mem_cons, List.not_mem_nil, or_false] at hv
  rcases hv with rfl | rfl | rfl | rfl
  · exact absurd hi (by decide)
  · exact absurd hi (by decide)
  · exact ⟨rfl, rfl⟩
  · exact absurd hi (by decide)

theorem u32Field_safe (name : String) (opts : FieldOptions) (hi : opts.indexedMap = false)
    (hi2 : opts.indexedSeq = false) (hi3 : opts.indexedSet = false) : (u32Field .default name opts).Safe := by
  have hp : (dynC (E := demoEnv) (.int .u32) (intC .default .u32)).PanicFree :=
    dynC_panicFree _ (intC_panicFree .default .u32)
  refine ⟨hp, hp.skip, dynC_panicFree _ (fixedC_panicFree _), hp, fun h => ?_, fun r => ?_, ?_⟩
  · simp [FieldDecl.isIndexed, u32Field, tyField, hi, hi2, hi3] at h
  · simp [u32Field, tyField, demoDflt, bind, Res.bind, pure]
  · rintro r v this ⟨s, rest, hv⟩
    have : ∃ a, v = ⟨.int .u32, a⟩ := by
      rcases hv with hv | hv | hv <;>
      · obtain ⟨a, s', _, hv⟩ := Rd.bind_ok.1 hv
        cases hv
        exact ⟨a, rfl⟩
    obtain ⟨a, rfl⟩ := this
    simp only [u32Field, tyField, (Dyn.proj_eq_some _ _ a).2 rfl]
    exact nofun

theorem demoVariants_safe : ∀ v ∈ demoVariants .default, v.Safe 3 := by
  intro v hv
  simp only [demoVariants, List.mem_cons, List.not_mem_nil, or_false] at hv
  rcases hv with rfl | rfl | rfl | rfl
  · exact ⟨nofun, nofun⟩
  · exact ⟨fun f hf => by cases List.mem_singleton.1 hf; exact u32Field_safe _ _ rfl rfl rfl, nofun⟩
  · refine ⟨fun f hf => ?_, nofun⟩
    simp only [List.mem_cons, List.not_mem_nil, or_false] at hf
    rcases hf with rfl | rfl | rfl <;> exact u32Field_safe _ _ rfl rfl rfl
  · exact ⟨fun f hf => by cases List.mem_singleton.1 hf; exact u32Field_safe _ _ rfl rfl rfl, fun _ _ _ _ => nofun⟩

/-- `B { n: 7, more: 300 }`, written at revision 3, with its payload overwritten. -/
example (t : Bytes) :
    (enumC .default demoEnumHistory (demoVariants .default)).skip ([3, 66, 4, 0, 0, 0, 255, 255, 255, 255] ++ t) =
      .ok ((), t) :=
  ((C128_enum .default demoEnumHistory demoEnum_history (demoVariants .default) 3 (by decide) (by decide)
    (demoEnum_accepted _ (.tail _ (.tail _ (.head _)))) rfl ⟨"B", [DV.u32 7, DV.u32 300]⟩ _
    [3, 66, 4, 0, 0, 0, 255, 255, 255, 255] demoEnum3_valid rfl demo_damage).1 t).1

/-- Two records of the log: revision 3 damaged, revision 1. -/
def demoEnumLog : List (LogRecord (EnumVal DV)) :=
  [⟨3, ⟨"B", [DV.u32 7, DV.u32 300]⟩, [3, 66, 4, 0, 0, 0, 7, 251, 44, 1], [3, 66, 4, 0, 0, 0, 255, 255, 255, 255],
      ⟨"B", [DV.u32 7, DV.u32 300]⟩⟩,
   ⟨1, ⟨"C", [DV.u32 5]⟩, [1, 2, 5], [1, 2, 5], ⟨"X", [DV.u32 5]⟩⟩]

example : ∃ answers, Salvages (enumC .default demoEnumHistory (demoVariants .default))
    (demoEnumLog.map LogRecord.stored).flatten answers ∧ answers.length = 2 ∧
    answers[1]? = some (some ⟨"X", [DV.u32 5]⟩) := by
  obtain ⟨as, h1, h2, h3⟩ := C128_log_enum .default demoEnumHistory demoEnum_history (demoVariants .default)
    (by
      intro k h1 h2
      have := demoEnum_history.lastEntry_take h1 h2
      exact demoEnum_accepted _ (List.mem_of_getElem? this))
    (fun k _ _ v hv _ f hf _ => demoVariants_faithful v hv f hf _)
    (by
      intro k h1 h2 v hv
      have := demoVariants_distinct v hv
      have h3 : k = 1 ∨ k = 2 ∨ k = 3 := by have : demoEnumHistory.length = 3 := rfl; omega
      rcases h3 with rfl | rfl | rfl
      · exact this.1
      · exact this.2.1
      · exact this.2.2)
    (by
      intro k h1 h2 v hv _ ho f hf
      have h3 : k = 1 ∨ k = 2 ∨ k = 3 := by have : demoEnumHistory.length = 3 := rfl; omega
      rcases h3 with rfl | rfl | rfl
      · cases ho
      · cases ho
      · rfl)
    demoVariants_safe demoEnumLog (by
      intro r hr
      simp only [demoEnumLog, List.mem_cons, List.not_mem_nil, or_false] at hr
      rcases hr with rfl | rfl
      · exact ⟨by decide, by decide, demoEnum3_valid, rfl, rfl, .inr ⟨rfl, demo_damage⟩⟩
      · exact ⟨by decide, by decide, ⟨2, (variantsAsOf 1 (demoVariants .default))[2]'(by decide),
          by rw [mem_variantArms]; exact ⟨.tail _ (.tail _ (.head _)), rfl, rfl⟩, rfl,
          ⟨⟨_, rfl, trivial⟩, rfl⟩, fun ho => by cases ho⟩, rfl, rfl, .inl rfl⟩)
  exact ⟨as, h1, h2, h3 1 _ rfl rfl⟩

example (as : List (Option (List (Dyn demoEnv.unlimited))))
    (h : Salvages (structC .default safeHistory safeFields) [1, 7] as) :
    as = [some [⟨.int .u32, BitVec.ofNat 32 7⟩, ⟨.vec .string, ([] : List String)⟩]] :=
  C128_salvage_unique _ _ _ _ h (.next (by decide) rfl .atEnd)

/-- Of a record in the legacy encoding this is not so: a string whose length is overwritten, `{ s: "ab" }`
at revision 1, makes skipping stop inside the record. -/
example :
    let fs := [tyField .default demoEnv "s" {} .string (fun _ => .ok "") (fun _ _ this => .ok this)]
    (structC .default [⟨1, false, false⟩] fs).enc [⟨.string, "ab"⟩] = .ok [1, 2, 97, 98] ∧
      DamagedAfter 1 [1, 2, 97, 98] [1, 1, 97, 98] ∧
      (structC .default [⟨1, false, false⟩] fs).skip [1, 1, 97, 98] = .ok ((), [98]) := by
  refine ⟨by decide +kernel, ⟨rfl, rfl⟩, by decide +kernel⟩

end Revision
