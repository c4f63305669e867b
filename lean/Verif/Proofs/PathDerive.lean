import Verif.Proofs.Path
import Verif.Props.DeriveWalkEnum
import Verif.Props.DeriveStreamMore

/-! Helper lemmas: following paths through derived types. -/

namespace Revision

variable {V β : Type}

/-- The walker of a struct written at the current revision. -/
theorem walkStruct_current (cfg : Cfg) {h : List Entry} (hh : ValidHistory h) {fs : List (FieldDecl V)} {vs : List V}
    {b : Bytes} (hv : (structC cfg h fs).valid vs) (hb : (structC cfg h fs).enc vs = .ok b) (t : Bytes) :
    ∃ bs, AllValid (fun f => f.wire (lastEntry h)) (aliveFields fs h.length) vs ∧
      Encodes (fun f => f.wire (lastEntry h)) (aliveFields fs h.length) vs bs ∧
      (((lastEntry h).optimised = true ∧ (lastEntry h).indexedStruct = true ∧
          (offsetTable bs ++ bs.flatten).length < 2 ^ 32 ∧
          walkStruct cfg h fs (b ++ t) =
            .ok (.indexed (offsetTable bs ++ bs.flatten) (aliveCount fs h.length), t)) ∨
        (((lastEntry h).optimised = true → (lastEntry h).indexedStruct = false) ∧
          walkStruct cfg h fs (b ++ t) = .ok (.wire h.length, bs.flatten ++ t))) := by
  have hfit := hh.fits
  have hmem := hh.lastEntry_mem
  have hrev := hh.lastEntry_revision
  have hlat := hh.latest_eq
  unfold structC at hv hb
  simp only [hlat] at hv hb
  generalize lastEntry h = e at *
  have hc : NotConverted h fs e.revision := .inr hrev
  obtain ⟨body, hbody, hb'⟩ := Res.bind_eq_ok.1 hb
  cases hb'
  rw [← hrev] at hv
  rw [validFields_iff] at hv
  obtain ⟨bs, hbs⟩ := serializeStructBody_ok e fs vs body hv.length_eq hbody
  rw [serializeStructBody_encodes e fs vs bs hbs] at hbody
  rw [hrev] at hv hbs
  refine ⟨bs, hv, hbs, ?_⟩
  rw [← hrev]
  unfold structLayout structPayload at hbody
  cases ho : e.optimised with
  | false =>
    right
    simp only [ho, Bool.false_eq_true, false_and, if_false] at hbody
    have hw := walkStruct_direct cfg hh hmem hc (fs := fs)
      (readU16_encU16 cfg (by omega) (bs.flatten ++ t))
    simp only [ho, Bool.false_eq_true, if_false] at hw
    cases hbody
    rw [List.append_assoc]
    exact ⟨nofun, hw⟩
  | true =>
    cases hi : e.indexedStruct with
    | false =>
      right
      simp only [ho, hi, Bool.false_eq_true, if_false, true_and, if_true] at hbody
      split at hbody
      · cases hbody
      rename_i hlt
      cases hbody
      have hw := walkStruct_direct cfg hh hmem hc (fs := fs)
        (readU16_encU16 cfg (by omega) (leBytes 4 bs.flatten.length ++ (bs.flatten ++ t)))
      simp only [ho, hi, Bool.false_eq_true, if_false, if_true] at hw
      rw [Rd.bind_of_ok (readVarlenLen_append _ (by omega) _)] at hw
      refine ⟨fun _ => rfl, ?_⟩
      rw [List.append_assoc, List.append_assoc]
      exact hw
    | true =>
      left
      simp only [ho, hi, true_and, if_true] at hbody
      split at hbody
      · cases hbody
      rename_i hlt
      cases hbody
      refine ⟨rfl, rfl, by omega, ?_⟩
      have hw := walkStruct_direct cfg hh hmem hc (fs := fs) (readU16_encU16 cfg (by omega)
        (leBytes 4 (offsetTable bs ++ bs.flatten).length ++ ((offsetTable bs ++ bs.flatten) ++ t)))
      simp only [ho, hi, if_true] at hw
      rw [Rd.bind_of_ok (readVarlenLen_append _ (by omega) _), Rd.bind_of_ok (readBorrowed_append _ t rfl)] at hw
      rw [List.append_assoc, List.append_assoc, hrev]
      rw [hrev] at hw
      exact hw

/-- Skipping the first fields. -/
theorem passFields_skip {c : FieldDecl V → Codec V} {rev : Nat} (t : Bytes) {fs vs bs}
    (hv : AllValid c fs vs) (he : Encodes c fs vs bs) :
    (∀ f ∈ fs, StructRepr.present f rev = true ∧ f.optimisedC = c f ∧ (c f).Faithful) →
    ∀ (idx j : Nat), j ≤ fs.length → ∃ o,
      passFields idx fs (List.replicate j false) (.wire rev) (bs.flatten ++ t) =
        .ok ((o, .wire rev), (bs.drop j).flatten ++ t) := by
  induction he with
  | nil =>
    intro _ idx j hj
    have : j = 0 := by simpa using hj
    subst this
    exact ⟨_, rfl⟩
  | @cons f fs v vs x bs h1 _ ih =>
    intro hf idx j hj
    cases hv with
    | cons hv1 hv2 =>
      cases j with
      | zero => exact ⟨_, rfl⟩
      | succ j =>
        obtain ⟨o, ho⟩ := ih hv2 (fun f hfm => hf f (List.mem_cons_of_mem _ hfm)) (idx + 1) j (by simpa using hj)
        obtain ⟨hp, hc, hff⟩ := hf f (List.mem_cons_self ..)
        refine ⟨none :: o, ?_⟩
        simp only [List.replicate_succ, passFields, StructRepr.skipField, hp, if_true, hc, List.flatten_cons,
          List.append_assoc, List.drop_succ_cons, Rd.bind_assoc]
        rw [Rd.bind_of_ok (hff.skip_after v x hv1 h1 _), Rd.pure_bind, Rd.bind_of_ok ho]
        rfl

theorem passFields_skip_indexed (bytes : Bytes) (fc : Nat) (s : Bytes) :
    ∀ (fs : List (FieldDecl V)) (idx j : Nat), ∃ o,
      passFields idx fs (List.replicate j false) (.indexed bytes fc) s = .ok ((o, .indexed bytes fc), s)
  | [], idx, j => by cases j <;> exact ⟨_, rfl⟩
  | f :: fs, idx, 0 => ⟨_, rfl⟩
  | f :: fs, idx, j + 1 => by
    obtain ⟨o, ho⟩ := passFields_skip_indexed bytes fc s fs (idx + 1) j
    refine ⟨none :: o, ?_⟩
    simp only [List.replicate_succ, passFields, StructRepr.skipField, Rd.pure_bind]
    rw [Rd.bind_of_ok ho]
    rfl

/-- Going to a field of a struct. -/
theorem fieldAt_finds (cfg : Cfg) {h : List Entry} (hh : ValidHistory h) {fs : List (FieldDecl V)}
    (hw : ∀ f ∈ aliveFields fs h.length,
      f.wire (lastEntry h) = f.optimisedC ∧ f.optimisedC.Faithful)
    {idx : Nat} {f : FieldDecl V} (hfi : (aliveFields fs h.length)[idx]? = some f) {get : Get V β}
    {inner : V → Option β} (hg : get.Finds f.optimisedC inner)
    (hx : f.isIndexed = true → (∃ out, get = .decode out) ∧ (lastEntry h).indexedStruct = false) :
    Rd.Finds (structC cfg h fs) (walkStruct cfg h fs >>= fieldAt (aliveFields fs h.length) idx f get)
      (fun vs => vs[idx]?.bind inner) := by
  intro vs b hv hb t
  obtain ⟨bs, hval, henc, hcase⟩ := walkStruct_current cfg hh hv hb t
  obtain ⟨hfl, rfl⟩ := List.getElem?_eq_some_iff.1 hfi
  have halv : ∀ f ∈ aliveFields fs h.length, StructRepr.present f h.length = true := by
    intro f hfm
    have := (List.mem_filter.1 hfm).2
    rw [present_eq (Nat.le_refl _) this, this]
  generalize hal : aliveFields fs h.length = al at *
  have hvl : idx < vs.length := by have := hval.length_eq; omega
  have hbl : idx < bs.length := by have := henc.length_eq; omega
  have hm : al[idx] ∈ al := List.getElem_mem hfl
  obtain ⟨hwire, hff⟩ := hw _ hm
  have hv1 := hval.get idx hfl hvl
  have he1 := henc.get idx hfl hvl hbl
  simp only [hwire] at hv1 he1
  simp only [List.getElem?_eq_getElem hvl, Option.bind_some]
  rcases hcase with ⟨ho, hi, hlt, hwk⟩ | ⟨hni, hwk⟩
  · have hnx : al[idx].isIndexed = false := by
      cases hxi : al[idx].isIndexed with
      | false => rfl
      | true => rw [(hx hxi).2] at hi; cases hi
    have hpl : al[idx].optimisedC = al[idx].plain := by simp [FieldDecl.optimisedC, hnx]
    rw [Rd.bind_of_ok hwk]
    have hac : aliveCount fs h.length = bs.length := by
      rw [show aliveCount fs h.length = (aliveFields fs h.length).length from rfl, hal, henc.length_eq.2]
    rw [hpl] at hv1 he1 hg hff
    cases get with
    | decode out =>
      obtain ⟨o, hp⟩ := passFields_skip_indexed (offsetTable bs ++ bs.flatten) (aliveCount fs h.length) t al 0 idx
      refine ⟨t, ?_⟩
      simp only [fieldAt]
      rw [Rd.bind_of_ok hp]
      simp only [StructRepr.decodeField, hac]
      rw [fieldSlice_run bs hlt hbl, Rd.lift_ok, Rd.pure_bind]
      have hd := hff.round_trip _ _ hv1 he1 []
      rw [List.append_nil] at hd
      simp only [Rd.within, hd, Rd.lift_ok, Rd.pure_bind, hg _ hv1]
      rfl
    | walk m =>
      obtain ⟨r, hr⟩ := hg _ _ hv1 he1 []
      rw [List.append_nil] at hr
      refine ⟨t, ?_⟩
      simp only [fieldAt, StructRepr.intoFieldBytes, hac]
      rw [checkedFieldSlice_run bs hlt hbl, Rd.lift_ok, Rd.pure_bind]
      simp only [Rd.within, hr]
      rfl
  · rw [Rd.bind_of_ok hwk]
    obtain ⟨o, hp⟩ := passFields_skip (c := fun f => f.wire (lastEntry h)) (rev := h.length) t hval henc (by
      intro f hfm
      exact ⟨halv f hfm, (hw f hfm).1.symm, by rw [(hw f hfm).1]; exact (hw f hfm).2⟩) 0 idx (by omega)
    have hpr := halv _ hm
    rw [List.drop_eq_getElem_cons hbl, List.flatten_cons, List.append_assoc] at hp
    cases get with
    | decode out =>
      refine ⟨(bs.drop (idx + 1)).flatten ++ t, ?_⟩
      simp only [fieldAt]
      rw [Rd.bind_of_ok hp]
      simp only [StructRepr.decodeField, hpr, if_true, Rd.bind_assoc, Rd.pure_bind]
      rw [Rd.bind_of_ok (hff.round_trip _ _ hv1 he1 _), hg _ hv1]
      rfl
    | walk m =>
      obtain ⟨r, hr⟩ := hg _ _ hv1 he1 ((bs.drop (idx + 1)).flatten ++ t)
      refine ⟨r, ?_⟩
      simp only [fieldAt]
      rw [Rd.bind_of_ok hp]
      simp only [StructRepr.walkField, hpr, if_true]
      exact hr

/-- The walker of an enum written at the current revision. -/
theorem walkEnum_current (cfg : Cfg) {h : List Entry} (hh : ValidHistory h) {vs : List (VariantDecl V)}
    (hA : AcceptedEnum (lastEntry h) vs) {x : EnumVal V} {b : Bytes} (hv : (enumC cfg h vs).valid x)
    (hb : (enumC cfg h vs).enc x = .ok b) (t : Bytes) :
    ∃ d v bs, (d, v) ∈ variantArms vs h.length ∧ v.ident = x.variant ∧
      AllValid (fun f => f.variantWire (lastEntry h)) (aliveFields v.fields h.length) x.fields ∧
      Encodes (fun f => f.variantWire (lastEntry h)) (aliveFields v.fields h.length) x.fields bs ∧
      walkEnum cfg h vs (b ++ t) = if (lastEntry h).optimised then .ok (.borrowed bs.flatten d, t)
        else .ok (.wire h.length d, bs.flatten ++ t) := by
  have hfit := hh.fits
  have hmem := hh.lastEntry_mem
  have hrev := hh.lastEntry_revision
  have hlat := hh.latest_eq
  unfold enumC at hv hb
  simp only [hlat] at hv hb
  generalize lastEntry h = e at *
  have hc : EnumNotConverted h vs e.revision := .inr hrev
  obtain ⟨d, v, harm, hid, hval, hsz⟩ := hv
  obtain ⟨body, hbody, hb'⟩ := Res.bind_eq_ok.1 hb
  cases hb'
  obtain ⟨xv, xs⟩ := x
  simp only at hid hval hsz
  subst hid
  rw [validFields_iff] at hval
  obtain ⟨bs, hbs, hlt, rfl⟩ := (serializeEnumBody_ok cfg e vs hA d v harm xs hval.length_eq body).1 hbody
  refine ⟨d, v, bs, hrev ▸ harm, rfl, hrev ▸ hval, hrev ▸ hbs, ?_⟩
  have hw := walkEnum_direct cfg hh hmem hc (vs := vs)
    (readU16_encU16 cfg (by omega) (enumLayout cfg e d (v.opts.size.getD .inline) bs ++ t))
  rw [← hrev, List.append_assoc, hw]
  unfold enumLayout
  cases ho : e.optimised with
  | false =>
    simp only [Bool.false_eq_true, if_false, List.append_assoc]
    rw [Rd.bind_of_ok (readU32_encU32 cfg (hA.disc_lt harm) _)]
    rfl
  | true =>
    simp only [if_true, List.cons_append]
    have hd := hA.disc_lt_32 ho harm
    refine walkOptimised_run ho hA (readOptimisedTag_new hd _ _) (tag_variantId_new hd _) harm ?_
    refine readSized_run _ bs.flatten t ?_
    have hwp : (fun f : FieldDecl V => f.variantWire e) = fun f => f.plain := by
      funext f; simp [FieldDecl.variantWire, ho]
    have := ValidEnum.sizeFits (vs := vs) (x := ⟨v.ident, xs⟩) ho (hsz ho) bs (hwp ▸ hbs)
    revert this
    cases hsize : v.opts.size.getD .inline with
    | inline => exact id
    | fixed n => exact id
    | varlen => exact fun _ => hlt ho hsize

/-- Going to the only field of a variant of an enum. -/
theorem variantAt_finds (cfg : Cfg) {h : List Entry} (hh : ValidHistory h) {vs : List (VariantDecl V)}
    (hA : AcceptedEnum (lastEntry h) vs) {v : VariantDecl V} (hv : v ∈ aliveVariants vs h.length) {f : FieldDecl V}
    (hf : aliveFields v.fields h.length = [f]) (hw : f.variantWire (lastEntry h) = f.plain) (hff : f.plain.Faithful)
    {get : Get V β} {inner : V → Option β} (hg : get.Finds f.plain inner) :
    Rd.Finds (enumC cfg h vs) (walkEnum cfg h vs >>= variantAt vs h.length v f get)
      (fun x => if x.variant = v.ident then
        match x.fields with
        | [y] => inner y
        | _ => none
      else none) := by
  intro x b hvx hb t
  have hrev := hh.lastEntry_revision
  obtain ⟨d, u, bs, harm, hid, hval, hbs, hwalk⟩ := walkEnum_current cfg hh hA hvx hb t
  obtain ⟨hvm, hva⟩ := List.mem_filter.1 hv
  obtain ⟨hum, hua, hlk⟩ := mem_variantArms.1 harm
  have hfit := hh.fits
  have hpos : 1 ≤ h.length := by have := (hh.revision_le hh.lastEntry_mem).1; omega
  have hiff : ∀ w, (w = EnumRepr.wire h.length d ∨ ∃ p, w = .borrowed p d) →
      (w.isVariant vs h.length v = true ↔ x.variant = v.ident) := by
    intro w hw
    have key : (discsAt vs h.length).lookup v.ident = some d ↔ x.variant = v.ident := by
      constructor
      · intro hq
        have h2 := mem_variantArms.2 ⟨hvm, hva, hq⟩
        rw [← hrev] at harm h2
        have := hA.arm_disc harm h2 rfl
        rw [← hid]
        exact congrArg (fun a => a.2.ident) this
      · intro hi
        rw [← hi, ← hid]
        exact hlk
    rcases hw with rfl | ⟨p, rfl⟩
    · simp only [EnumRepr.isVariant]
      rw [if_pos ⟨hpos, Nat.le_refl _, hva⟩]
      simpa using key
    · simp only [EnumRepr.isVariant]
      simpa using key
  by_cases hx : x.variant = v.ident
  · simp only [hx, if_true]
    have huv : u = v := by
      rw [← hrev] at hua hva
      exact hA.same hum hua hvm hva (hid.trans hx)
    subst huv
    rw [hf] at hval hbs
    generalize x.fields = xs at *
    cases hbs with
    | @cons _ _ y ys z zs hz hzs =>
    cases hzs
    cases hval with
    | cons hy _ =>
    simp only [hw] at hy hz
    simp only [List.flatten_cons, List.flatten_nil, List.append_nil] at hwalk
    cases ho : (lastEntry h).optimised with
    | true =>
      rw [ho] at hwalk
      simp only [if_true] at hwalk
      have hi := (hiff (.borrowed z d) (.inr ⟨z, rfl⟩)).2 hx
      refine ⟨t, ?_⟩
      rw [Rd.bind_of_ok hwalk]
      simp only [variantAt, hi, if_true]
      cases get with
      | decode out =>
        have hd := hff.round_trip _ _ hy hz []
        rw [List.append_nil] at hd
        simp only [EnumRepr.decodeVariant, hi, if_true, Rd.within, hd, Rd.lift_ok, Rd.pure_bind, hg _ hy]
        rfl
      | walk m =>
        obtain ⟨r, hr⟩ := hg _ _ hy hz []
        rw [List.append_nil] at hr
        simp only [EnumRepr.viewSingle, hi, if_true, Rd.pure_bind, Rd.within, hr]
        rfl
    | false =>
      rw [ho] at hwalk
      simp only [Bool.false_eq_true, if_false] at hwalk
      have hi := (hiff (.wire h.length d) (.inl rfl)).2 hx
      rw [Rd.bind_of_ok hwalk]
      simp only [variantAt, hi, if_true]
      cases get with
      | decode out =>
        refine ⟨t, ?_⟩
        simp only [EnumRepr.decodeVariant, hi, if_true]
        rw [Rd.bind_of_ok (hff.round_trip _ _ hy hz _), hg _ hy]
        rfl
      | walk m =>
        simp only [EnumRepr.intoVariant, hi, if_true]
        exact hg _ _ hy hz _
  · simp only [hx, if_false]
    have hno : ∀ w, (w = EnumRepr.wire h.length d ∨ ∃ p, w = .borrowed p d) → w.isVariant vs h.length v = false := by
      intro w hw
      cases hq : w.isVariant vs h.length v with
      | false => rfl
      | true => exact absurd ((hiff w hw).1 hq) hx
    split at hwalk
    · refine ⟨t, ?_⟩
      rw [Rd.bind_of_ok hwalk]
      simp only [variantAt, hno _ (.inr ⟨_, rfl⟩), Bool.false_eq_true, if_false]
      rfl
    · refine ⟨bs.flatten ++ t, ?_⟩
      rw [Rd.bind_of_ok hwalk]
      simp only [variantAt, hno _ (.inl rfl), Bool.false_eq_true, if_false]
      rfl

end Revision
