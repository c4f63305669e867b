import Verif.Props.DeriveWalkEnum
import Verif.Props.DeriveWalk
import Verif.Props.Schema
import Verif.Spec.WalkReport

/-! # C110: the revision and the variant a walker reports -/

namespace Revision

variable {V : Type}

/-- What `revision()` of a struct's walker is, whatever the bytes. -/
theorem walkStruct_revision (cfg : Cfg) (h : List Entry) (hh : ValidHistory h) (fs : List (FieldDecl V))
    (e : Entry) (he : e ∈ h) (s t : Bytes) (hs : readU16 cfg s = .ok (e.revision, t))
    (w : StructRepr) (r : Bytes) (hw : walkStruct cfg h fs s = .ok (w, r)) :
    w.revision h.length = if (structHasConvert fs && e.revision != h.length) || (e.optimised && e.indexedStruct)
      then h.length else e.revision := by
  have hle := hh.revision_le he
  unfold walkStruct at hw
  rw [Rd.bind_of_ok hs, hh.latest_eq, if_neg (by omega)] at hw
  cases hg : (structHasConvert fs && e.revision != h.length) with
  | true =>
    simp only [hg, if_true] at hw
    obtain ⟨_, _, _, hw⟩ := Rd.bind_ok.1 hw
    obtain ⟨_, _, _, hw⟩ := Rd.bind_ok.1 hw
    obtain ⟨_, _, _, hw⟩ := Rd.bind_ok.1 hw
    cases hw
    simp [StructRepr.revision]
  | false =>
    simp only [hg, Bool.false_eq_true, if_false, hh.find_optimised he] at hw
    cases ho : e.optimised with
    | false =>
      simp only [ho, Bool.false_eq_true, if_false] at hw
      cases hw
      simp [StructRepr.revision]
    | true =>
      simp only [ho, if_true] at hw
      cases hi : e.indexedStruct with
      | false =>
        simp only [hi, Bool.false_eq_true, if_false] at hw
        obtain ⟨_, _, _, hw⟩ := Rd.bind_ok.1 hw
        cases hw
        simp [StructRepr.revision]
      | true =>
        simp only [hi, if_true] at hw
        obtain ⟨_, _, _, hw⟩ := Rd.bind_ok.1 hw
        obtain ⟨_, _, _, hw⟩ := Rd.bind_ok.1 hw
        cases hw
        simp [StructRepr.revision]

/-- The walker of a struct, whatever the bytes: `revision()` is the revision the data was written at.

Missing from the full property: older data that is converted, or that has a table of field offsets
(`C110_indexed_false`, `C110_converted_false`). -/
theorem C110_struct_partial (cfg : Cfg) (h : List Entry) (hh : ValidHistory h) (fs : List (FieldDecl V))
    (e : Entry) (he : e ∈ h) (hp : e.revision = h.length ∨ WalkedInPlace h fs e)
    (s t : Bytes) (hs : readU16 cfg s = .ok (e.revision, t))
    (w : StructRepr) (r : Bytes) (hw : walkStruct cfg h fs s = .ok (w, r)) :
    w.revision h.length = e.revision := by
  rw [walkStruct_revision cfg h hh fs e he s t hs w r hw]
  split
  · rename_i hc
    rcases hp with hp | ⟨hp, hi⟩
    · exact hp.symm
    · rw [Bool.or_eq_true, Bool.and_eq_true, Bool.and_eq_true] at hc
      rcases hc with ⟨hc, hn⟩ | ⟨h1, h2⟩
      · rcases hp with hp | hp
        · simp [structHasConvert] at hc
          obtain ⟨f, hf, hq⟩ := hc
          simp [hp f hf] at hq
        · exact hp.symm
      · rcases hi with hi | hi
        · rw [hi] at h1; cases h1
        · rw [hi] at h2; cases h2
  · rfl

/-- In every case the walker's `revision()` is a revision of the history that is not older than the
data: never newer than the current one, and never zero. -/
theorem C110_struct_bounds (cfg : Cfg) (h : List Entry) (hh : ValidHistory h) (fs : List (FieldDecl V))
    (e : Entry) (he : e ∈ h) (s t : Bytes) (hs : readU16 cfg s = .ok (e.revision, t))
    (w : StructRepr) (r : Bytes) (hw : walkStruct cfg h fs s = .ok (w, r)) :
    w.revision h.length = e.revision ∨ w.revision h.length = h.length := by
  rw [walkStruct_revision cfg h hh fs e he s t hs w r hw]
  split
  · exact .inr rfl
  · exact .inl rfl

/-- What `revision()` of an enum's walker is, whatever the bytes. -/
theorem walkEnum_revision (cfg : Cfg) (h : List Entry) (hh : ValidHistory h) (vs : List (VariantDecl V))
    (e : Entry) (he : e ∈ h) (s t : Bytes) (hs : readU16 cfg s = .ok (e.revision, t))
    (w : EnumRepr) (r : Bytes) (hw : walkEnum cfg h vs s = .ok (w, r)) :
    w.revision h.length = if (enumHasConvert vs && e.revision != h.length) || e.optimised
      then h.length else e.revision := by
  have hle := hh.revision_le he
  unfold walkEnum at hw
  rw [Rd.bind_of_ok hs, hh.latest_eq, if_neg (by omega)] at hw
  cases hg : (enumHasConvert vs && e.revision != h.length) with
  | true =>
    simp only [hg, if_true] at hw
    obtain ⟨_, _, _, hw⟩ := Rd.bind_ok.1 hw
    obtain ⟨_, _, _, hw⟩ := Rd.bind_ok.1 hw
    obtain ⟨_, _, _, hw⟩ := Rd.bind_ok.1 hw
    obtain ⟨_, _, _, hw⟩ := Rd.bind_ok.1 hw
    cases hw
    simp [EnumRepr.revision]
  | false =>
    simp only [hg, Bool.false_eq_true, if_false, hh.find_optimised he] at hw
    cases ho : e.optimised with
    | false =>
      simp only [ho, Bool.false_eq_true, if_false] at hw
      obtain ⟨_, _, _, hw⟩ := Rd.bind_ok.1 hw
      cases hw
      simp [EnumRepr.revision]
    | true =>
      simp only [ho, if_true] at hw
      unfold walkOptimisedEnum at hw
      obtain ⟨⟨tag, sc⟩, _, _, hw⟩ := Rd.bind_ok.1 hw
      simp only at hw
      split at hw
      · cases hw
      · split at hw
        · cases hw
        · obtain ⟨_, _, _, hw⟩ := Rd.bind_ok.1 hw
          cases hw
          simp [EnumRepr.revision]

/-- The walker of an enum, whatever the bytes: `revision()` is the revision the data was written at.

Missing from the full property: older data that is converted or has the optimised encoding
(`C110_optimised_false`). -/
theorem C110_enum_partial (cfg : Cfg) (h : List Entry) (hh : ValidHistory h) (vs : List (VariantDecl V))
    (e : Entry) (he : e ∈ h)
    (hp : e.revision = h.length ∨ EnumNotConverted h vs e.revision ∧ e.optimised = false)
    (s t : Bytes) (hs : readU16 cfg s = .ok (e.revision, t))
    (w : EnumRepr) (r : Bytes) (hw : walkEnum cfg h vs s = .ok (w, r)) :
    w.revision h.length = e.revision := by
  rw [walkEnum_revision cfg h hh vs e he s t hs w r hw]
  split
  · rename_i hc
    rcases hp with hp | ⟨hp, hi⟩
    · exact hp.symm
    · rcases hp with hp | hp
      · simp [hp, hi] at hc
      · exact hp.symm
  · rfl

theorem C110_enum_bounds (cfg : Cfg) (h : List Entry) (hh : ValidHistory h) (vs : List (VariantDecl V))
    (e : Entry) (he : e ∈ h) (s t : Bytes) (hs : readU16 cfg s = .ok (e.revision, t))
    (w : EnumRepr) (r : Bytes) (hw : walkEnum cfg h vs s = .ok (w, r)) :
    w.revision h.length = e.revision ∨ w.revision h.length = h.length := by
  rw [walkEnum_revision cfg h hh vs e he s t hs w r hw]
  split
  · exact .inr rfl
  · exact .inl rfl

/-! ## The name of the variant -/

/-- Data of a revision with the legacy encoding, whatever the bytes. -/
theorem C110_names_legacy (cfg : Cfg) (h : List Entry) (hh : ValidHistory h) (vs : List (VariantDecl V))
    (hec : VariantEndsConverted vs) (e : Entry) (he : e ∈ h) (ho : e.optimised = false)
    (hA : AcceptedEnum e vs) (hc : EnumNotConverted h vs e.revision)
    (s t : Bytes) (hs : readU16 cfg s = .ok (e.revision, t)) : WalkNames cfg h vs s := by
  intro x r hd
  have hle := hh.revision_le he
  have hfit := hh.fits
  rw [enum_dec_run cfg hh he hs] at hd
  obtain ⟨d, v, t1, h1, harm, hdec⟩ := legacy_dec_inv ho hd
  obtain ⟨hvm, hva, hlk⟩ := mem_variantArms.1 harm
  have hvl := variant_kept hec hc hle.2 (by omega) hvm hva
  refine ⟨.wire e.revision d, t1, ?_, ?_⟩
  · rw [walkEnum_direct cfg hh he hc hs, ho]
    simp only [Bool.false_eq_true, if_false]
    exact Rd.bind_ok.2 ⟨d, t1, h1, rfl⟩
  · rw [legacyVariant_ident hvl hdec]
    exact (C52_variant_name _ _ _ hA.distinct _ hA.discsAt _ _).2 ⟨hle.1, hle.2, hlk⟩

/-- Data of a revision with the optimised encoding, whatever the bytes.

Missing from the full property: discriminants that have moved to another variant since
(`C110_optimised_false`). -/
theorem C110_names_optimised_partial (cfg : Cfg) (h : List Entry) (hh : ValidHistory h)
    (vs : List (VariantDecl V)) (hec : VariantEndsConverted vs) (e : Entry) (he : e ∈ h)
    (ho : e.optimised = true) (hA : AcceptedEnum e vs) (hA' : AcceptedEnum (lastEntry h) vs)
    (hc : EnumNotConverted h vs e.revision) (hst : StableDiscs vs e.revision h.length)
    (s t : Bytes) (hs : readU16 cfg s = .ok (e.revision, t)) : WalkNames cfg h vs s := by
  intro x r hd
  have hle := hh.revision_le he
  have hfit := hh.fits
  rw [enum_dec_run cfg hh he hs] at hd
  obtain ⟨tag, d, v, t1, h1, hid, harm, hdec⟩ := optimised_dec_inv ho hd
  obtain ⟨hvm, hva, hlk⟩ := mem_variantArms.1 harm
  have hvl := variant_kept hec hc hle.2 (by omega) hvm hva
  have hsized : ∃ body r', readSized (v.opts.size.getD .inline) t1 = .ok (body, r') := by
    unfold decodeOptimisedVariant at hdec
    obtain ⟨body, r', hb, _⟩ := Rd.bind_ok.1 hdec
    exact ⟨body, r', hb⟩
  obtain ⟨body, r', hb⟩ := hsized
  refine ⟨.borrowed body d, r', ?_, ?_⟩
  · rw [walkEnum_direct cfg hh he hc hs, ho]
    simp only [if_true]
    exact walkOptimised_run ho hA h1 hid harm hb
  · rw [optimisedVariant_ident hvl hdec]
    have hr : (lastEntry h).revision = h.length := hh.lastEntry_revision
    obtain ⟨d', hd'⟩ := hA'.arm_total hvm (by rw [hr]; exact hvl)
    have hwd := discAt_of_arm hA' hd'
    rw [hr] at hwd
    have hdd := (hst v (List.mem_filter.2 ⟨hvm, hva⟩) v (List.mem_filter.2 ⟨hvm, hvl⟩) d d'
      (discAt_of_arm hA harm) hwd).1 rfl
    subst hdd
    have hq := lookup_of_discAt hwd
    have hC := C52_variant_name h.length _ _ hA'.distinct _ hA'.discsAt d v.ident
    rw [hr] at hC
    exact hC.2 ⟨by omega, Nat.le_refl _, hq⟩

/-- Data of the current revision, whatever the encoding and the bytes. -/
theorem C110_names_current (cfg : Cfg) (h : List Entry) (hh : ValidHistory h) (vs : List (VariantDecl V))
    (hec : VariantEndsConverted vs) (hA : AcceptedEnum (lastEntry h) vs)
    (s t : Bytes) (hs : readU16 cfg s = .ok (h.length, t)) : WalkNames cfg h vs s := by
  have hr := hh.lastEntry_revision
  rw [← hr] at hs
  cases ho : (lastEntry h).optimised with
  | false => exact C110_names_legacy cfg h hh vs hec _ hh.lastEntry_mem ho hA (.inr hr) s t hs
  | true =>
    have := stableDiscs_refl (lastEntry h) vs hA
    rw [hr] at this
    exact C110_names_optimised_partial cfg h hh vs hec _ hh.lastEntry_mem ho hA hA (.inr hr)
      (by rw [hr]; exact this) s t hs

/-- Data of an older revision of an enum with convert functions, whatever the bytes: the name is the
one of the converted value.  The convert functions are taken to give values that can be written.

Missing from the full property: a current revision with the optimised encoding
(`C110_converted_false`). -/
theorem C110_names_converted_partial (cfg : Cfg) (h : List Entry) (hh : ValidHistory h)
    (vs : List (VariantDecl V)) (e : Entry) (he : e ∈ h) (hold : e.revision ≠ h.length)
    (hcv : enumHasConvert vs = true) (ho : (lastEntry h).optimised = false)
    (hA : AcceptedEnum (lastEntry h) vs) (s t : Bytes) (hs : readU16 cfg s = .ok (e.revision, t))
    (hw : ∀ x r, (enumC cfg h vs).dec s = .ok (x, r) → ∃ b, (enumC cfg h vs).enc x = .ok b) :
    WalkNames cfg h vs s := by
  intro x r hd
  have hle := hh.revision_le he
  obtain ⟨b, hb⟩ := hw x r hd
  obtain ⟨d, v, fb, harm, hxi, -, hwalk⟩ :=
    walkEnum_converted cfg h hh vs e he hold hcv ho hA s t hs x r b hd hb
  have hr := hh.lastEntry_revision
  obtain ⟨hvm, hva, hlk⟩ := mem_variantArms.1 harm
  refine ⟨_, r, hwalk, ?_⟩
  have hC := C52_variant_name h.length _ _ hA.distinct _ hA.discsAt d v.ident
  rw [hr] at hC hlk
  rw [← hxi]
  exact hC.2 ⟨by omega, Nat.le_refl _, hlk⟩

/-! ## Cases -/

/-- The theorems applied: whatever follows the header of legacy data of revision 1, of optimised data of
revision 1 whose discriminants have not moved, and of data of the current revision; a converted value. -/
example (t : Bytes) : WalkNames .default [⟨1, false, false⟩, ⟨2, true, false⟩] insertedVariants (1 :: t) :=
  C110_names_legacy .default [⟨1, false, false⟩, ⟨2, true, false⟩] ⟨by decide, by decide, by decide⟩ insertedVariants
    demo_variantEndsConverted.1 ⟨1, false, false⟩ (.head _) rfl (inserted_accepted false true _ (.head _))
    (.inl rfl) _ t rfl

example (t : Bytes) : WalkNames .default [⟨1, true, false⟩, ⟨2, true, false⟩] appendedVariants (1 :: t) :=
  C110_names_optimised_partial .default [⟨1, true, false⟩, ⟨2, true, false⟩] ⟨by decide, by decide, by decide⟩
    appendedVariants demo_variantEndsConverted.2.1 ⟨1, true, false⟩ (.head _) rfl
    (appended_accepted true true _ (.head _)) (appended_accepted true true _ (.tail _ (.head _))) (.inl rfl)
    appended_stable _ t rfl

example (t : Bytes) : WalkNames .default [⟨1, true, false⟩, ⟨2, true, false⟩] insertedVariants (2 :: t) :=
  C110_names_current .default [⟨1, true, false⟩, ⟨2, true, false⟩] ⟨by decide, by decide, by decide⟩
    insertedVariants demo_variantEndsConverted.1 (inserted_accepted true true _ (.tail _ (.head _))) _ t rfl

example (t : Bytes) :
    WalkNames .default [⟨1, true, false⟩, ⟨2, false, false⟩] removedVariants ([1, 65, 1, 0, 0, 0, 9] ++ t) := by
  refine C110_names_converted_partial .default [⟨1, true, false⟩, ⟨2, false, false⟩] ⟨by decide, by decide, by decide⟩
    removedVariants ⟨1, true, false⟩ (.head _) (by decide) rfl rfl (removed_accepted true false _ (.tail _ (.head _)))
    _ _ rfl ?_
  intro x r hx
  cases hx
  exact ⟨_, rfl⟩

/-- The revision of a walker of optimised data of revision 1 and of legacy data of an enum. -/
example (t : Bytes) (w : StructRepr) (r : Bytes)
    (hw : walkStruct .default [⟨1, true, false⟩, ⟨2, true, false⟩] addedFields (1 :: t) = .ok (w, r)) :
    w.revision 2 = 1 :=
  C110_struct_partial .default [⟨1, true, false⟩, ⟨2, true, false⟩] ⟨by decide, by decide, by decide⟩ addedFields
    ⟨1, true, false⟩ (.head _) (.inr ⟨.inl (by simp [addedFields]; exact ⟨rfl, rfl⟩), .inr rfl⟩) _ t rfl w r hw

example (t : Bytes) (w : EnumRepr) (r : Bytes)
    (hw : walkEnum .default [⟨1, false, false⟩, ⟨2, true, false⟩] insertedVariants (1 :: t) = .ok (w, r)) :
    w.revision 2 = 1 :=
  C110_enum_partial .default [⟨1, false, false⟩, ⟨2, true, false⟩] ⟨by decide, by decide, by decide⟩ insertedVariants
    ⟨1, false, false⟩ (.head _) (.inr ⟨.inl rfl, rfl⟩) _ t rfl w r hw

/-- Legacy data of revision 1, in which `B` is number 1; at revision 2 it is number 2. -/
example : ValidHistory [⟨1, false, false⟩, ⟨2, false, false⟩] ∧
    (∀ e ∈ [(⟨1, false, false⟩ : Entry), ⟨2, false, false⟩], AcceptedEnum e insertedVariants) ∧
    EnumNotConverted [⟨1, false, false⟩, ⟨2, false, false⟩] insertedVariants 1 ∧
    readU16 .default [1, 1] = .ok (1, [1]) ∧
    walkEnum .default [⟨1, false, false⟩, ⟨2, false, false⟩] insertedVariants [1, 1] = .ok (.wire 1 1, []) ∧
    variantName 2 (insertedVariants.map VariantDecl.sig) 1 1 = some "B" ∧
    variantName 2 (insertedVariants.map VariantDecl.sig) 2 1 = some "X" :=
  ⟨⟨by decide, by decide, by decide⟩, inserted_accepted false false, .inl rfl, rfl, rfl, by decide +kernel,
    by decide +kernel⟩

/-- Converted data: the name is the one of the value converted to. -/
example : walkEnum .default [⟨1, true, false⟩, ⟨2, false, false⟩] removedVariants [1, 65, 1, 0, 0, 0, 9] =
      .ok (.converted [2, 1, 9] 2 1, []) ∧
    variantName 2 (removedVariants.map VariantDecl.sig) 2 1 = some "B" ∧
    variantName 2 (removedVariants.map VariantDecl.sig) 1 1 = some "Gone" :=
  ⟨rfl, by decide +kernel, by decide +kernel⟩

/-- Data of revision 1 of a struct with a field added at revision 2. -/
example : WalkedInPlace [⟨1, true, false⟩, ⟨2, true, false⟩] addedFields ⟨1, true, false⟩ ∧
    (structC .default [⟨1, true, false⟩] (fieldsAsOf 1 addedFields)).enc [DV.u32 7] = .ok [1, 1, 0, 0, 0, 7] ∧
    walkStruct .default [⟨1, true, false⟩, ⟨2, true, false⟩] addedFields [1, 1, 0, 0, 0, 7] = .ok (.wire 1, [7]) :=
  ⟨⟨.inl (by simp [addedFields]; exact ⟨rfl, rfl⟩), .inr rfl⟩, rfl, rfl⟩

/-- A struct whose revision 1 had a table of field offsets: the walker of revision 1 data says 2. -/
theorem C110_indexed_false :
    ∃ (h : List Entry) (fs : List (FieldDecl DV)) (b : Bytes) (w : StructRepr),
      ValidHistory h ∧ (structC .default (h.take 1) (fieldsAsOf 1 fs)).enc [DV.u32 7] = .ok b ∧
      structHasConvert fs = false ∧ walkStruct .default h fs b = .ok (w, []) ∧ w.revision h.length = 2 :=
  ⟨[⟨1, true, true⟩, ⟨2, true, true⟩], addedFields, [1, 5, 0, 0, 0, 4, 0, 0, 0, 7],
    .indexed [4, 0, 0, 0, 7] 2, ⟨by decide, by decide, by decide⟩, rfl, rfl, rfl, rfl⟩

/-- An enum whose revision 1 was optimised: the walker of a `B` written at revision 1 reports revision 2
and, with it, the name `X`. -/
theorem C110_optimised_false :
    ∃ (h : List Entry) (vs : List (VariantDecl DV)) (b : Bytes) (w : EnumRepr),
      ValidHistory h ∧ (∀ e ∈ h, AcceptedEnum e vs) ∧ EnumNotConverted h vs 1 ∧
      (enumC .default (h.take 1) (variantsAsOf 1 vs)).enc ⟨"B", []⟩ = .ok b ∧
      (enumC .default h vs).dec b = .ok (⟨"B", []⟩, []) ∧
      walkEnum .default h vs b = .ok (w, []) ∧ w.revision h.length = 2 ∧
      variantName h.length (vs.map VariantDecl.sig) (w.revision h.length) w.discriminant = some "X" ∧
      variantName h.length (vs.map VariantDecl.sig) 1 w.discriminant = some "B" :=
  ⟨[⟨1, true, false⟩, ⟨2, true, false⟩], insertedVariants, [1, 1], .borrowed [] 1,
    ⟨by decide, by decide, by decide⟩, inserted_accepted true true, .inl rfl, rfl, rfl, rfl, rfl,
    by decide +kernel, by decide +kernel⟩

/-- An enum with a convert function whose current revision is optimised: the walker reports the tag
byte of the converted value, which is the number of no variant. -/
theorem C110_converted_false :
    ∃ (h : List Entry) (vs : List (VariantDecl DV)) (b : Bytes) (w : EnumRepr),
      ValidHistory h ∧ (∀ e ∈ h, AcceptedEnum e vs) ∧
      (enumC .default (h.take 1) (variantsAsOf 1 vs)).enc ⟨"B", [DV.u32 9]⟩ = .ok b ∧
      (enumC .default h vs).dec b = .ok (⟨"B", [DV.u32 9]⟩, []) ∧
      walkEnum .default h vs b = .ok (w, []) ∧
      variantName h.length (vs.map VariantDecl.sig) (w.revision h.length) w.discriminant = none :=
  ⟨[⟨1, false, false⟩, ⟨2, true, false⟩], removedVariants, [1, 2, 9], .converted [2, 65, 1, 0, 0, 0, 9] 2 65,
    ⟨by decide, by decide, by decide⟩, removed_accepted false true, rfl, rfl, rfl, by decide +kernel⟩

end Revision
