import Verif.Proofs.MacroPanic
import Verif.Spec.Program

/-! # C97, C98: the macro as a whole -/

namespace Revision

/-- A struct with a removed field and one of fixed width. -/
def demoStruct : ItemSrc where
  args := [.entry 2 [.optimised, .indexedStruct], .entry 1 []]
  attrs := []
  body := .struct [⟨"a", "u32", [[.fixed]]⟩, ⟨"b", "String", [[.start 1], [.stop 2, .convert "f"]]⟩]

/-- An enum with a variant that moves and one added later. -/
def demoEnum : ItemSrc where
  args := [.revision 2, .walk false]
  attrs := []
  body := .enum [⟨"A", [[.override [.revision 2, .discriminant 7]]], []⟩,
    ⟨"B", [[.start 2]], [⟨"0", "u8", []⟩]⟩]

/-! ## C97 Which definitions are accepted -/

/-- A definition is accepted, with history `h`, exactly when it makes sense, declares `h`, and, if it has a walker, the
methods of the walker are not called after raw identifiers.

Missing from the full property: such identifiers (`C97_raw_false`). -/
theorem C97_accepted_iff_partial (s : ItemSrc) (h : List Entry) :
    (∃ x, expand s = .ok x ∧ x.history = h) ↔
      s.Documented h ∧ (walkOn s.args = true → s.body.PlainNames h.length) := by
  constructor
  · rintro ⟨x, hx, rfl⟩
    obtain ⟨args, item, body, h, h1, h2, h3, h4, h5, rfl⟩ := (expand_iff s x).1 hx
    have hv := validHistory_of h1 h2 h4
    obtain ⟨hb, rfl⟩ := (parseBody_iff _ _).1 h3
    obtain ⟨h6, h7, h7'⟩ := (passes_iff hv (readBody_ends _ hb) _ _ _ _).1 h5
    obtain ⟨ha, a1, a2, a3, a4⟩ := (finish_iff _ _).1 h1
    obtain ⟨hi, -⟩ := (finish_iff _ _).1 h2
    obtain ⟨h8, h9, -, -⟩ := (C46_item_iff _ _ _).1 h4
    refine ⟨⟨?_, h9, hv.fits, (goodBody_iff hv s.body).1 ⟨hb, h6⟩, ?_⟩, ?_⟩
    · rcases h8 with ⟨h8, h8'⟩ | ⟨h8, h8'⟩
      · rw [h8'] at ha; rw [h8] at hi
        exact .inl ⟨ha, hi⟩
      · rw [h8'] at ha; rw [h8] at hi
        exact .inr ⟨ha, hi⟩
    · intro hw hc
      rw [← a1, ← a2]
      refine h7 ?_ ((hasConvert_iff _ hb).2 hc)
      rw [a4, a2]
      exact hw
    · intro hw
      rw [hv.latest_eq] at h7'
      exact (plainNames_iff _ hb _ hv.fits).1 (h7' (by rw [a4, a2]; exact hw))
  · rintro ⟨⟨hh, hne, hfit, hb, hw⟩, hpn⟩
    have hasc : h.map Entry.revision = List.range' 1 h.length := by
      rcases hh with ⟨h1, -⟩ | ⟨-, h1⟩ <;> exact h1.ascending
    have hv : ValidHistory h := ⟨hne, hasc, hfit⟩
    have hle := hv.latest_eq
    have hpos := List.length_pos_iff.2 hne
    have mk : ∀ os g, Declares os g → ItemOptions.finish os = .ok ⟨g, serializeOn os, deserializeOn os,
        (os.filterMap ItemOption.skipOf).head?, (os.filterMap ItemOption.walkOf).head?⟩ :=
      fun os g hd => (finish_iff _ _).2 ⟨hd, rfl, rfl, rfl, rfl⟩
    obtain ⟨hopt, hgood⟩ := (goodBody_iff hv s.body).2 hb
    have hp := fun sk => (passes_iff hv (readBody_ends _ hopt) sk (walkOn s.args) (serializeOn s.args)
      (deserializeOn s.args)).2 ⟨hgood, fun h1 h2 => hw h1 ((hasConvert_iff _ hopt).1 h2), fun h1 => by
        rw [hle]; exact (plainNames_iff _ hopt _ hfit).2 (hpn h1)⟩
    have hbody := (parseBody_iff s.body _).2 ⟨hopt, rfl⟩
    rcases hh with ⟨h1, h2⟩ | ⟨h1, h2⟩
    · exact ⟨_, (expand_iff s _).2 ⟨_, _, _, h, mk _ _ h1, mk _ _ h2, hbody,
        (C46_item_iff _ _ _).2 ⟨.inl ⟨rfl, rfl⟩, hne, by omega, by omega⟩, hp _, rfl⟩, rfl⟩
    · exact ⟨_, (expand_iff s _).2 ⟨_, _, _, h, mk _ _ h1, mk _ _ h2, hbody,
        (C46_item_iff _ _ _).2 ⟨.inr ⟨rfl, rfl⟩, hne, by omega, by omega⟩, hp _, rfl⟩, rfl⟩

example : demoStruct.Documented [⟨1, false, false⟩, ⟨2, true, true⟩] :=
  ((C97_accepted_iff_partial demoStruct _).1 ⟨_, rfl, rfl⟩).1

example : demoEnum.Documented [⟨1, false, false⟩, ⟨2, false, false⟩] :=
  ((C97_accepted_iff_partial demoEnum _).1 ⟨_, rfl, rfl⟩).1

/-- A walker of a type with a conversion function needs the type written and read. -/
example : ¬ ∃ h, ({ demoStruct with args := .serialize false :: demoStruct.args }).Documented h := by
  rintro ⟨h, hd⟩
  obtain ⟨x, hx, -⟩ := (C97_accepted_iff_partial _ h).2 ⟨hd, fun _ => by simp [BodySrc.PlainNames, demoStruct, PlainName]⟩
  cases hx

/-- A field called `r#type` makes the macro panic, unless walkers are turned off: the names of the walker's methods are
put together from text. -/
theorem C97_raw_false : ∃ (s : ItemSrc) (h : List Entry), s.Documented h ∧ expand s = .error .panicked ∧
    ∃ x, expand { s with args := .walk false :: s.args } = .ok x ∧ x.history = h := by
  refine ⟨⟨[.revision 1], [], .struct [⟨"r#type", "u8", []⟩]⟩, [⟨1, false, false⟩], ?_, by decide +kernel, ?_⟩
  · have := ((C97_accepted_iff_partial ⟨[.revision 1, .walk false], [], .struct [⟨"r#type", "u8", []⟩]⟩
      [⟨1, false, false⟩]).1 ⟨_, rfl, rfl⟩).1
    exact ⟨.inl ⟨⟨by decide, by decide, by simp [ItemOption.entryOf], .inr ⟨1, rfl, rfl, by decide, rfl⟩⟩,
      ⟨by decide, by decide, by simp [ItemOption.entryOf], .inl ⟨rfl, .nil, rfl⟩⟩⟩, by simp, by decide, this.body,
      fun _ h => by simp [BodySrc.Converts, FieldSrc.options] at h⟩
  · exact ⟨_, rfl, rfl⟩

/-- The macro itself does not panic: the `expect`s in its code generators cannot fail, and neither can the check
for a conversion function that parsing has made before.

Missing from the full property: raw identifiers in items with a walker (`C97_raw_false`). -/
theorem C97_no_panic_partial (s : ItemSrc) (hn : walkOn s.args = true → ∀ r, s.body.PlainNames r) :
    expand s ≠ .error .panicked ∧ expand s ≠ .error .convertMissing := NP_expand s hn

/-- What the theorems about generated code ask of a definition, an accepted one has: a history of revisions
`1 … N` and, for an enum whose live variants have different names, discriminants for all of them that fit, in the
optimised encoding its five bits. -/
theorem C97_sound (s : ItemSrc) (x : Expansion) (hx : expand s = .ok x) :
    ValidHistory x.history ∧
    ∀ vs, x.body = .enum vs → ∀ e ∈ x.history, DistinctVariants e.revision (vs.map VariantAst.sig) →
      vs.length ≤ 2 ^ 32 → (∀ v ∈ vs, ∀ p ∈ v.opts.overrides, ∀ d, p.2 = some d → d < 2 ^ 32) →
      AcceptedSigs e (vs.map VariantAst.sig) := by
  obtain ⟨args, item, body, h, h1, h2, h3, h4, h5, rfl⟩ := (expand_iff s x).1 hx
  have hv := validHistory_of h1 h2 h4
  obtain ⟨hb, rfl⟩ := (parseBody_iff _ _).1 h3
  obtain ⟨h6, -⟩ := (passes_iff hv (readBody_ends _ hb) _ _ _ _).1 h5
  refine ⟨hv, ?_⟩
  intro vs hvs e he hd hlen hov
  simp only at hvs he
  rw [hvs] at h6 h5
  obtain ⟨-, hg, -⟩ := h6
  obtain ⟨D, hD, ho, -⟩ := hg e he
  refine ⟨hd, ⟨D, hD, ?_⟩, ?_⟩
  · intro n d hl
    refine (calcDiscs_bound _ (2 ^ 32) _ D hD ?_).2 ?_ (n, d) (mem_of_lookup_eq_some _ _ _ hl)
    · rw [filter_sig_length]
      exact Nat.le_trans (List.length_filter_le _ _) hlen
    · intro v hv' _ d hd'
      obtain ⟨w, hw, rfl⟩ := List.mem_map.1 hv'
      unfold VariantSig.overrideAt at hd'
      rw [Option.join_eq_some_iff] at hd'
      exact hov w hw _ (mem_of_lookup_eq_some _ _ _ hd') d rfl
  · intro hop
    rw [validateOptimised_iff, filter_sig_length]
    obtain ⟨a, b, c⟩ := ho hop
    refine ⟨a, ?_, D, hD, c⟩
    intro v hv' hl
    obtain ⟨w, hw, rfl⟩ := List.mem_map.1 hv'
    exact b w hw hl

example : ∃ x vs, expand demoEnum = .ok x ∧ x.body = .enum vs ∧ x.history.length = 2 ∧
    ∀ e ∈ x.history, AcceptedSigs e (vs.map VariantAst.sig) := by
  refine ⟨_, _, rfl, rfl, rfl, ?_⟩
  intro e he
  refine (C97_sound demoEnum _ rfl).2 _ rfl e he ?_ (by decide) ?_
  · have he' : e = ⟨1, false, false⟩ ∨ e = ⟨2, false, false⟩ := by
      have he' : e ∈ [(⟨1, false, false⟩ : Entry), ⟨2, false, false⟩] := he
      simpa using he'
    rcases he' with rfl | rfl <;> (unfold DistinctVariants; decide)
  · decide

/-! ## C98 What comes out -/

/-- The implementations are those the switches in the arguments of the macro turn on, each once.  Missing:
switches in an attribute below the macro do nothing (`C98_below_false`). -/
theorem C98_switches_partial (s : ItemSrc) (x : Expansion) (hx : expand s = .ok x) :
    x.impls.Nodup ∧ Impl.revisioned ∈ x.impls ∧
    (Impl.serialize ∈ x.impls ↔ serializeOn s.args = true) ∧
    (Impl.deserialize ∈ x.impls ↔ deserializeOn s.args = true) ∧
    (Impl.skip ∈ x.impls ↔ skipOn s.args = true) ∧
    (Impl.skipCheck ∈ x.impls ↔ skipOn s.args = true ∧ deserializeOn s.args = true) ∧
    (Impl.walk ∈ x.impls ↔ walkOn s.args = true) := by
  obtain ⟨args, item, body, h, h1, h2, h3, h4, h5, rfl⟩ := (expand_iff s x).1 hx
  obtain ⟨-, a1, a2, a3, a4⟩ := (finish_iff _ _).1 h1
  unfold skipOn walkOn
  rw [← a1, ← a2, ← a3, ← a4]
  dsimp only
  unfold ItemOptions.impls
  dsimp only
  cases args.serialize <;> cases args.deserialize <;> cases args.skip.getD _ <;> cases args.walk.getD _ <;> decide

example : ∃ x, expand demoEnum = .ok x ∧ x.impls = [.serialize, .deserialize, .skip, .skipCheck, .revisioned] :=
  ⟨_, rfl, rfl⟩

/-- `#[revision(serialize = false)]`, as the documentation has it, is accepted below the macro and does nothing. -/
theorem C98_below_false : ∃ (s : ItemSrc) (x : Expansion), expand s = .ok x ∧
    s.attrs = [[.serialize false]] ∧ Impl.serialize ∈ x.impls :=
  ⟨⟨[.revision 1], [[.serialize false]], .struct []⟩, _, rfl, rfl, by decide⟩

/-- A switch that contradicts an earlier one is accepted, unlike for `skip` and `walk`; the earlier one is lost. -/
theorem C98_twice_false : (∃ (s : ItemSrc) (x : Expansion), expand s = .ok x ∧
    s.args = [.revision 1, .serialize false, .serialize true] ∧ Impl.serialize ∈ x.impls) ∧
    ∀ a b body attrs, expand ⟨[.revision 1, .skip a, .skip b], attrs, body⟩ = .error .optionTwice :=
  ⟨⟨⟨[.revision 1, .serialize false, .serialize true], [], .struct []⟩, _, rfl, rfl, by decide⟩,
    fun _ _ _ _ => rfl⟩

/-- Without switches every implementation is there. -/
theorem C98_defaults (s : ItemSrc) (x : Expansion) (hx : expand s = .ok x)
    (hn : ∀ o ∈ s.args, o.isSwitch = false) :
    x.impls = [.serialize, .deserialize, .skip, .skipCheck, .walk, .revisioned] := by
  obtain ⟨args, item, body, h, h1, h2, h3, h4, h5, rfl⟩ := (expand_iff s x).1 hx
  obtain ⟨-, a1, a2, a3, a4⟩ := (finish_iff _ _).1 h1
  have hz : ∀ (g : ItemOption → Option Bool), (∀ o, o.isSwitch = false → g o = none) → s.args.filterMap g = [] := by
    intro g hg
    rw [List.filterMap_eq_nil_iff]
    intro o ho
    exact hg o (hn o ho)
  have z1 := hz ItemOption.serializeOf (fun o ho => by cases o <;> simp [ItemOption.isSwitch] at ho <;> rfl)
  have z2 := hz ItemOption.deserializeOf (fun o ho => by cases o <;> simp [ItemOption.isSwitch] at ho <;> rfl)
  have z3 := hz ItemOption.skipOf (fun o ho => by cases o <;> simp [ItemOption.isSwitch] at ho <;> rfl)
  have z4 := hz ItemOption.walkOf (fun o ho => by cases o <;> simp [ItemOption.isSwitch] at ho <;> rfl)
  unfold serializeOn at a1
  unfold deserializeOn at a2
  rw [z1] at a1; rw [z2] at a2; rw [z3] at a3; rw [z4] at a4
  simp [ItemOptions.impls, a1, a2, a3, a4]

example : ∃ x, expand demoStruct = .ok x ∧ ∀ o ∈ demoStruct.args, o.isSwitch = false := ⟨_, rfl, by decide⟩

/-- The item keeps, in order and with their types, exactly the fields and variants of the current revision, and
the revision it reports is the last of its history. -/
theorem C98_item (s : ItemSrc) (x : Expansion) (hx : expand s = .ok x) :
    x.revision = x.history.length ∧ x.item.shape = s.body.shapeAt x.history.length := by
  obtain ⟨args, item, body, h, h1, h2, h3, h4, h5, rfl⟩ := (expand_iff s x).1 hx
  have hv := validHistory_of h1 h2 h4
  obtain ⟨hb, rfl⟩ := (parseBody_iff _ _).1 h3
  have hle := hv.latest_eq
  have hfit := hv.fits
  refine ⟨hle, ?_⟩
  dsimp only
  rw [hle]
  have hfs : ∀ fs : List FieldSrc, (∀ f ∈ fs, WellFormedOptions f.options) →
      ((fs.map readField).filter (·.existsAt h.length)).map (fun f => (f.name, f.ty)) =
      (fs.filter (·.liveAt h.length)).map fun f => (f.name, f.ty) := by
    intro fs hfs
    rw [List.filter_map, List.map_map]
    have : fs.filter ((·.existsAt h.length) ∘ readField) = fs.filter (·.liveAt h.length) :=
      List.filter_congr fun f hf => readField_live f (hfs f hf) _ hfit
    rw [this]
    rfl
  cases hsb : s.body with
  | struct fs =>
    rw [hsb] at hb
    simp only [readBody, BodyAst.reexport, BodyAst.shape, BodySrc.shapeAt]
    rw [hfs fs hb]
  | enum vs =>
    rw [hsb] at hb
    simp only [readBody, BodyAst.reexport, BodyAst.shape, BodySrc.shapeAt]
    rw [List.filter_map, List.map_map, List.map_map]
    have : vs.filter ((·.existsAt h.length) ∘ readVariant) = vs.filter (·.liveAt h.length) :=
      List.filter_congr fun v hv' => readVariant_live v (hb v hv').1 _ hfit
    rw [this]
    congr 1
    refine List.map_congr_left ?_
    intro v hv'
    have := hfs v.fields (hb v (List.mem_filter.1 hv').1).2
    simp only [Function.comp_apply, readVariant, this]

example : ∃ x, expand demoStruct = .ok x ∧ x.item.shape = .struct [("a", "u32")] ∧ x.revision = 2 := ⟨_, rfl, rfl, rfl⟩

end Revision
