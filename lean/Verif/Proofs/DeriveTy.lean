import Verif.Model.DeriveTy
import Verif.Proofs.Ty
import Verif.Proofs.IndexedCodecs

/-! Helper lemmas: fields of the supported types satisfy what the derived code needs. -/

namespace Revision

theorem Codec.embed_faithful {α V : Type} {inj : α → V} {proj : V → Option α} {c : Codec α}
    (hp : ∀ v a, proj v = some a → v = inj a) (h : c.Faithful) : (c.embed inj proj).Faithful where
  round_trip := by
    rintro v b ⟨a, ha, hv⟩ hb t
    simp only [Codec.embed, ha] at hb ⊢
    rw [Rd.bind_of_ok (h.round_trip a b hv hb t), hp v a ha]
    rfl
  skip_after := by
    rintro v b ⟨a, ha, hv⟩ hb t
    simp only [Codec.embed, ha] at hb ⊢
    exact h.skip_after a b hv hb t
  skipS_after := by
    rintro v b ⟨a, ha, hv⟩ hb t
    simp only [Codec.embed, ha] at hb ⊢
    exact h.skipS_after a b hv hb t
  check_after := by
    rintro v b ⟨a, ha, hv⟩ hb t
    simp only [Codec.embed, ha] at hb ⊢
    exact h.check_after a b hv hb t

theorem Codec.embed_lawful {α V : Type} {inj : α → V} {proj : V → Option α} {c : Codec α}
    (hp : ∀ v a, proj v = some a ↔ v = inj a) (h : c.Lawful) : (c.embed inj proj).Lawful where
  enc_ok := by
    rintro v ⟨a, ha, hv⟩
    simp only [Codec.embed, ha]
    exact h.enc_ok a hv
  round_trip := by
    rintro v b ⟨a, ha, hv⟩ hb t
    simp only [Codec.embed, ha] at hb ⊢
    rw [Rd.bind_of_ok (h.round_trip a b hv hb t), (hp v a).1 ha]
    rfl
  framed := h.framed.bind fun _ => .pure _
  sound := h.sound.bind fun a ha => .pure ⟨a, (hp _ _).2 rfl, ha⟩
  skip_agree := h.skip_agree.bind_pure_left
  skip_framed := h.skip_framed
  skipS_eq := h.skipS_eq

theorem Dyn.proj_eq_some {ι : Type} [DecidableEq ι] {E : Env ι} (t : Ty ι) (v : Dyn E) (a : t.denote E.X) :
    Dyn.proj t v = some a ↔ v = ⟨t, a⟩ := by
  rcases v with ⟨s, b⟩
  unfold Dyn.proj
  by_cases h : s = t
  · subst h
    simp
  · simp only [h, dif_neg, not_false_eq_true]
    constructor
    · rintro ⟨⟩
    · intro hc; cases hc; exact absurd rfl h

section
variable {ι : Type} [DecidableEq ι] {E : Env ι}

theorem dynC_faithful (t : Ty ι) {c : Codec (t.denote E.X)} (h : c.Faithful) : (dynC t c).Faithful :=
  Codec.embed_faithful (fun v a => (Dyn.proj_eq_some t v a).1) h

theorem dynC_lawful (t : Ty ι) {c : Codec (t.denote E.X)} (h : c.Lawful) : (dynC t c).Lawful :=
  Codec.embed_lawful (fun v a => Dyn.proj_eq_some t v a) h

end

theorem Codec.Lawful.faithful' {c : Codec α} (h : c.Lawful) (hc : c.dec.Agree c.check) : c.Faithful where
  round_trip := h.round_trip
  skip_after v b hv hb t := by
    obtain ⟨x, hx⟩ := h.skip_agree _ _ _ (h.round_trip v b hv hb t)
    exact hx
  skipS_after v b hv hb t := by
    obtain ⟨x, hx⟩ := h.skip_agree _ _ _ (h.round_trip v b hv hb t)
    rw [h.skipS_eq]; exact hx
  check_after v b hv hb t := by
    obtain ⟨x, hx⟩ := hc _ _ _ (h.round_trip v b hv hb t)
    exact hx

section
variable {ι : Type} {E : Env ι}

theorem Ty.codec_faithful (cfg : Cfg) (hE : E.Lawful) (hx : ∀ i, (E.extC i).CheckLaw) (t : Ty ι) :
    (t.codec cfg E).Faithful :=
  (t.codec_lawful cfg hE).faithful' (t.codec_checkLaw cfg hE hx).agree

theorem fixedIntC_lawful (cfg : Cfg) (k : IntTy) : (fixedIntC cfg k).Lawful := by
  cases k <;> first | exact fixedC_lawful _ | exact intC_lawful cfg _

theorem fixedIntC_checks (cfg : Cfg) (k : IntTy) : (fixedIntC cfg k).Checks := by
  cases k <;> first | exact fixedC_checks _ | exact intC_checks cfg _

theorem fixedOf_lawful (cfg : Cfg) (hE : E.Lawful) (t : Ty ι) : (fixedOf cfg E t).Lawful := by
  cases t <;> first | exact fixedIntC_lawful cfg _ | exact Ty.codec_lawful cfg hE _

theorem fixedOf_faithful (cfg : Cfg) (hE : E.Lawful) (hx : ∀ i, (E.extC i).CheckLaw) (t : Ty ι) :
    (fixedOf cfg E t).Faithful := by
  cases t <;> first
    | exact (fixedIntC_lawful cfg _).faithful (fixedIntC_checks cfg _)
    | exact Ty.codec_faithful cfg hE hx _

theorem bulkOf_lawful (cfg : Cfg) (hE : E.Lawful) (t : Ty ι) : (bulkOf cfg E t).Lawful := by
  cases t <;> first
    | exact vecOf_lawful _ _ (Ty.codec_lawful cfg hE _)
    | exact Ty.codec_lawful cfg hE _

theorem bulkOf_faithful (cfg : Cfg) (hE : E.Lawful) (hx : ∀ i, (E.extC i).CheckLaw) (t : Ty ι) :
    (bulkOf cfg E t).Faithful := by
  cases t with
  | vec t =>
    refine (bulkOf_lawful cfg hE (.vec t)).faithful' ?_
    show Rd.Agree _ (vecOf _ E t _).check
    rw [vecOf_check]
    exact (Rd.Agree.refl _).discard
  | _ => exact Ty.codec_faithful cfg hE hx _

theorem indexedOf_faithful (cfg : Cfg) (hE : E.Lawful) (hx : ∀ i, (E.extC i).CheckLaw) (t : Ty ι) :
    (indexedOf cfg E t).Faithful := by
  have hf := fun t => Ty.codec_faithful cfg hE hx t
  cases t with
  | btreeMap k v =>
    have := hE.trans k
    exact indexedBTreeMapC_faithful (hf k) (hf v) _ _ _
  | hashMap k v => exact indexedHashMapC_faithful (hf k) (hf v) _ _ _ _
  | vec t | vector t => exact indexedSeqC_faithful (hf t) _
  | btreeSet k =>
    have := hE.trans k
    exact indexedBTreeSetC_faithful (hf k) _ _
  | hashSet k => exact indexedHashSetC_faithful (hf k) _ _
  | _ => exact hf _

theorem tyField_wire_faithful [DecidableEq ι] (cfg : Cfg) (hE : E.Lawful) (hx : ∀ i, (E.extC i).CheckLaw)
    (name : String) (opts : FieldOptions) (t : Ty ι) (dflt convert) (e : Entry) :
    ((tyField cfg E name opts t dflt convert).wire e).Faithful := by
  unfold FieldDecl.wire FieldDecl.optimisedC FieldDecl.legacyC
  split
  · split
    · exact dynC_faithful t (indexedOf_faithful cfg hE hx t)
    · exact dynC_faithful t (Ty.codec_faithful cfg hE hx t)
  · split
    · exact dynC_faithful t (fixedOf_faithful cfg hE hx t)
    · split
      · exact dynC_faithful t (bulkOf_faithful cfg hE hx t)
      · exact dynC_faithful t (Ty.codec_faithful cfg hE hx t)

end

theorem tyField_variantWire_faithful [DecidableEq ι] (cfg : Cfg) (hE : E.Lawful) (hx : ∀ i, (E.extC i).CheckLaw)
    (name : String) (opts : FieldOptions) (t : Ty ι) (dflt convert) (e : Entry) :
    ((tyField cfg E name opts t dflt convert).variantWire e).Faithful := by
  have hp : ((tyField cfg E name opts t dflt convert).plain).Faithful := dynC_faithful t (Ty.codec_faithful cfg hE hx t)
  have := tyField_wire_faithful cfg hE hx name opts t dflt convert ⟨0, false, false⟩
  unfold FieldDecl.variantWire
  split
  · exact hp
  · exact this

theorem FieldDecl.legacySkip_agree {V : Type} (f : FieldDecl V) (hp : f.plain.Lawful) (hf : f.fixedLe.Lawful)
    (hs : f.opts.specialised = true → f.bulk = f.plain) :
    f.legacyC.dec.Agree f.legacySkip ∧ f.legacyC.dec.Agree f.legacySkipS := by
  unfold FieldDecl.legacyC FieldDecl.legacySkip FieldDecl.legacySkipS
  by_cases hx : f.opts.fixed
  · rw [if_pos hx, if_pos hx, if_pos hx]
    exact ⟨hf.skip_agree, hf.skip_agree⟩
  · rw [if_neg hx, if_neg hx, if_neg hx]
    have : (if f.opts.specialised = true then f.bulk else f.plain) = f.plain := by
      split
      · exact hs ‹_›
      · rfl
    rw [this]
    refine ⟨hp.skip_agree, ?_⟩
    intro s a r h
    obtain ⟨x, hx⟩ := hp.skip_agree s a r h
    exact ⟨x, by rw [hp.skipS_eq]; exact hx⟩

theorem tyField_legacySkip [DecidableEq ι] (cfg : Cfg) (hE : E.Lawful)
    (name : String) (opts : FieldOptions) (t : Ty ι) (dflt convert)
    (hs : cfg.specialised = true ∨ opts.specialised = false) :
    (tyField cfg E name opts t dflt convert).legacyC.dec.Agree (tyField cfg E name opts t dflt convert).legacySkip ∧
      (tyField cfg E name opts t dflt convert).legacyC.dec.Agree
        (tyField cfg E name opts t dflt convert).legacySkipS := by
  refine FieldDecl.legacySkip_agree _ (dynC_lawful t (Ty.codec_lawful cfg hE t))
    (dynC_lawful t (fixedOf_lawful cfg hE t)) ?_
  intro hsp
  rcases hs with hs | hs
  · show dynC t (bulkOf cfg E t) = dynC t (t.codec cfg E)
    congr 1
    cases cfg with
    | mk fw sp =>
      simp only at hs
      subst hs
      cases t <;> rfl
  · change opts.specialised = true at hsp
    rw [hs] at hsp; cases hsp

end Revision
