import Verif.Proofs.DeriveWalkEnum
import Verif.Props.DeriveEnum

/-! # C59, C70: walkers of derived enums -/

namespace Revision

variable {V : Type}

/-! ## C59 An enum walker identifies the variant -/

/-- Data of a revision with the legacy encoding, whatever the bytes. -/
theorem C59_legacy (cfg : Cfg) (h : List Entry) (hh : ValidHistory h) (vs : List (VariantDecl V))
    (hec : VariantEndsConverted vs) (e : Entry) (he : e ∈ h) (ho : e.optimised = false)
    (hA : AcceptedEnum e vs) (hA' : AcceptedEnum (lastEntry h) vs) (hc : EnumNotConverted h vs e.revision)
    (s t : Bytes) (hs : readU16 cfg s = .ok (e.revision, t)) : WalkIdentifies cfg h vs s := by
  intro x r hd
  have hle := hh.revision_le he
  have hfit := hh.fits
  rw [enum_dec_run cfg hh he hs] at hd
  obtain ⟨d, v, t1, h1, harm, hdec⟩ := legacy_dec_inv ho hd
  obtain ⟨hvm, hva, hlk⟩ := mem_variantArms.1 harm
  have hvl := variant_kept hec hc hle.2 (by omega) hvm hva
  refine ⟨.wire e.revision d, t1, ?_, ?_⟩
  · rw [walkEnum_direct cfg hh he hc hs, ho]
    simp only [Bool.false_eq_true, if_false]
    exact Rd.bind_ok.2 ⟨d, t1, h1, rfl⟩
  · intro w hw
    obtain ⟨hwm, hwa⟩ := List.mem_filter.1 hw
    rw [legacyVariant_ident hvl hdec]
    simp only [EnumRepr.isVariant]
    have hr : (lastEntry h).revision = h.length := hh.lastEntry_revision
    by_cases hwe : w.existsAt e.revision = true
    · rw [if_pos ⟨hle.1, hle.2, hwe⟩]
      constructor
      · intro hq
        have hq : (discsAt vs e.revision).lookup w.ident = some d := by simpa using hq
        have := hA.arm_disc harm (mem_variantArms.2 ⟨hwm, hwe, hq⟩) rfl
        exact congrArg (fun a => a.2.ident) this
      · intro hi
        rw [← hi, hlk]
        simp
    · rw [if_neg (fun h => hwe h.2.2)]
      constructor
      · intro hq; simp at hq
      · intro hi
        rw [← hr] at hvl hwa
        have := hA'.same hvm hvl hwm hwa hi
        subst this
        exact absurd hva hwe

/-- Data of a revision with the optimised encoding, whatever the bytes.

Missing from the full property: discriminants that have moved to another variant since
(`C59_moved_discriminant_false`). -/
theorem C59_optimised_partial (cfg : Cfg) (h : List Entry) (hh : ValidHistory h) (vs : List (VariantDecl V))
    (hec : VariantEndsConverted vs) (e : Entry) (he : e ∈ h) (ho : e.optimised = true)
    (hA : AcceptedEnum e vs) (hA' : AcceptedEnum (lastEntry h) vs) (hc : EnumNotConverted h vs e.revision)
    (hst : StableDiscs vs e.revision h.length)
    (s t : Bytes) (hs : readU16 cfg s = .ok (e.revision, t)) : WalkIdentifies cfg h vs s := by
  intro x r hd
  have hle := hh.revision_le he
  have hfit := hh.fits
  rw [enum_dec_run cfg hh he hs] at hd
  obtain ⟨tag, d, v, t1, h1, hid, harm, hdec⟩ := optimised_dec_inv ho hd
  obtain ⟨hvm, hva, hlk⟩ := mem_variantArms.1 harm
  have hvl := variant_kept hec hc hle.2 (by omega) hvm hva
  have hsized : ∃ body r', readSized (v.opts.size.getD .inline) t1 = .ok (body, r') := by
    unfold decodeOptimisedVariant at hdec
    obtain ⟨body, r', hb, _⟩ := Rd.bind_ok.1 hdec
    exact ⟨body, r', hb⟩
  obtain ⟨body, r', hb⟩ := hsized
  refine ⟨.borrowed body d, r', ?_, ?_⟩
  · rw [walkEnum_direct cfg hh he hc hs, ho]
    simp only [if_true]
    exact walkOptimised_run ho hA h1 hid harm hb
  · intro w hw
    obtain ⟨hwm, hwa⟩ := List.mem_filter.1 hw
    rw [optimisedVariant_ident hvl hdec]
    have hr : (lastEntry h).revision = h.length := hh.lastEntry_revision
    obtain ⟨d', hd'⟩ := hA'.arm_total hwm (by rw [hr]; exact hwa)
    have hwd := discAt_of_arm hA' hd'
    rw [hr] at hwd
    rw [hst v (List.mem_filter.2 ⟨hvm, hva⟩) w hw d d' (discAt_of_arm hA harm) hwd]
    simp only [EnumRepr.isVariant, lookup_of_discAt hwd]
    simp only [beq_iff_eq, Option.some.injEq]
    exact eq_comm

/-- Discriminants are stable from a revision to itself. -/
theorem stableDiscs_refl (e : Entry) (vs : List (VariantDecl V)) (hA : AcceptedEnum e vs) :
    StableDiscs vs e.revision e.revision := by
  intro v hv w hw d d' hd hd'
  obtain ⟨hvm, hva⟩ := List.mem_filter.1 hv
  obtain ⟨hwm, hwa⟩ := List.mem_filter.1 hw
  have h1 := mem_variantArms.2 ⟨hvm, hva, lookup_of_discAt hd⟩
  have h2 := mem_variantArms.2 ⟨hwm, hwa, lookup_of_discAt hd'⟩
  constructor
  · intro h; exact congrArg Prod.fst (hA.arm_ident h1 h2 h)
  · intro h; exact congrArg (fun a => a.2.ident) (hA.arm_disc h1 h2 h)

/-- Data of the current revision, whatever the encoding and the bytes. -/
theorem C59_current (cfg : Cfg) (h : List Entry) (hh : ValidHistory h) (vs : List (VariantDecl V))
    (hec : VariantEndsConverted vs) (hA : AcceptedEnum (lastEntry h) vs)
    (s t : Bytes) (hs : readU16 cfg s = .ok (h.length, t)) : WalkIdentifies cfg h vs s := by
  have hr := hh.lastEntry_revision
  rw [← hr] at hs
  cases ho : (lastEntry h).optimised with
  | false => exact C59_legacy cfg h hh vs hec _ hh.lastEntry_mem ho hA hA (.inr hr) s t hs
  | true =>
    have := stableDiscs_refl (lastEntry h) vs hA
    rw [hr] at this
    exact C59_optimised_partial cfg h hh vs hec _ hh.lastEntry_mem ho hA hA (.inr hr) (by rw [hr]; exact this) s t hs

/-- The walker of converted data holds the value written at the current, legacy revision. -/
theorem walkEnum_converted (cfg : Cfg) (h : List Entry) (hh : ValidHistory h) (vs : List (VariantDecl V))
    (e : Entry) (he : e ∈ h) (hold : e.revision ≠ h.length) (hcv : enumHasConvert vs = true)
    (ho : (lastEntry h).optimised = false) (hA : AcceptedEnum (lastEntry h) vs)
    (s t : Bytes) (hs : readU16 cfg s = .ok (e.revision, t)) (x : EnumVal V) (r b : Bytes)
    (hd : (enumC cfg h vs).dec s = .ok (x, r)) (hb : (enumC cfg h vs).enc x = .ok b) :
    ∃ d v fb, (d, v) ∈ variantArms vs (lastEntry h).revision ∧ v.ident = x.variant ∧
      serializeFields (fun f w => (f.variantWire (lastEntry h)).enc w) (lastEntry h).revision v.fields x.fields = .ok fb ∧
      walkEnum cfg h vs s = .ok (.converted (encU16 cfg h.length ++ (encU32 cfg d ++ fb))
        (encU16 cfg h.length ++ encU32 cfg d).length d, r) := by
  have hle := hh.revision_le he
  have hfit := hh.fits
  rw [enum_dec_run cfg hh he hs] at hd
  have hr := hh.lastEntry_revision
  have hb' := hb
  unfold enumC at hb
  simp only [hh.latest_eq] at hb
  obtain ⟨body, hbody, hb⟩ := Res.bind_eq_ok.1 hb
  cases hb
  unfold serializeEnumBody at hbody
  split at hbody
  · cases hbody
  · rename_i d v hf
    have harm := List.mem_of_find?_eq_some hf
    have hxi := List.find?_some hf
    simp only [beq_iff_eq] at hxi
    obtain ⟨fb, hfb, hbody⟩ := Res.bind_eq_ok.1 hbody
    rw [if_neg (by simp [ho])] at hbody
    cases hbody
    refine ⟨d, v, fb, harm, hxi, hfb, ?_⟩
    unfold walkEnum
    rw [Rd.bind_of_ok hs, hh.latest_eq, if_neg (by omega)]
    have hg : (enumHasConvert vs && e.revision != h.length) = true := by simp [hcv, hold]
    simp only [hg, if_true]
    rw [afterHeader_hit hh he, Rd.bind_of_ok hd, hb']
    simp only [Rd.lift_ok, Rd.pure_bind, readU16_encU16 cfg (show h.length < 2 ^ 16 by omega) _]
    rw [List.length_append, Nat.add_sub_cancel]
    have := atCursor_run (encU16 cfg h.length) (encU32 cfg d) fb (m := readU32 cfg) (a := d)
      (fun t => readU32_encU32 cfg (hA.disc_lt harm) t)
    rw [this]
    rfl

/-- Data of an older revision of an enum with convert functions, whatever the bytes: the walker holds
the converted value.  The convert functions are taken to give values that can be written.

Missing from the full property: a current revision with the optimised encoding
(`C59_converted_false`). -/
theorem C59_converted_partial (cfg : Cfg) (h : List Entry) (hh : ValidHistory h) (vs : List (VariantDecl V))
    (e : Entry) (he : e ∈ h) (hold : e.revision ≠ h.length) (hcv : enumHasConvert vs = true)
    (ho : (lastEntry h).optimised = false) (hA : AcceptedEnum (lastEntry h) vs)
    (s t : Bytes) (hs : readU16 cfg s = .ok (e.revision, t))
    (hw : ∀ x r, (enumC cfg h vs).dec s = .ok (x, r) → ∃ b, (enumC cfg h vs).enc x = .ok b) :
    WalkIdentifies cfg h vs s := by
  intro x r hd
  obtain ⟨b, hb⟩ := hw x r hd
  obtain ⟨d, v, fb, harm, hxi, -, hwalk⟩ :=
    walkEnum_converted cfg h hh vs e he hold hcv ho hA s t hs x r b hd hb
  have hr := hh.lastEntry_revision
  obtain ⟨hvm, hva, hlk⟩ := mem_variantArms.1 harm
  refine ⟨_, r, hwalk, ?_⟩
  intro w hwv
  obtain ⟨hwm, hwa⟩ := List.mem_filter.1 hwv
  simp only [EnumRepr.isVariant, beq_iff_eq]
  rw [← hr] at hwa ⊢
  rw [← hxi]
  constructor
  · intro hq
    exact congrArg (fun a => a.2.ident) (hA.arm_disc harm (mem_variantArms.2 ⟨hwm, hwa, hq⟩) rfl)
  · intro hi
    rw [← hi, hlk]

/-- ```
enum E { A, #[revision(start = 2)] X, B }        // with sizes, for optimised revisions
``` -/
def insertedVariants : List (VariantDecl DV) :=
  [⟨"A", { size := some .inline }, [], fun _ _ => .panic⟩,
   ⟨"X", { start := some 2, size := some .inline }, [], fun _ _ => .panic⟩,
   ⟨"B", { size := some .inline }, [], fun _ _ => .panic⟩]

/-- ```
enum E { A, #[revision(end = 2, convert_fn = "…")] Gone(u32), B(u32) }        // Gone becomes B
``` -/
def removedVariants : List (VariantDecl DV) :=
  [⟨"A", { size := some .inline }, [], fun _ _ => .panic⟩,
   ⟨"Gone", { stop := some 2, convert := some "…", size := some .varlen }, [u32Field .default "field_0" {}],
     fun fields _ => .ok ⟨"B", fields⟩⟩,
   ⟨"B", { size := some .varlen }, [u32Field .default "field_0" {}], fun _ _ => .panic⟩]

theorem inserted_accepted (o₁ o₂ : Bool) : ∀ e ∈ [(⟨1, o₁, false⟩ : Entry), ⟨2, o₂, false⟩],
    AcceptedEnum e insertedVariants := by
  intro e he
  have hlt : ∀ (D : Discs), (∀ p ∈ D, p.2 < 2 ^ 32) → ∀ n d, D.lookup n = some d → d < 2 ^ 32 :=
    fun D h n d hl => h _ (mem_of_lookup_eq_some _ _ _ hl)
  simp only [List.mem_cons, List.not_mem_nil, or_false] at he
  rcases he with rfl | rfl
  · refine ⟨?_, ⟨[("B", 1), ("A", 0)], rfl, hlt _ (by decide)⟩, fun _ => rfl⟩
    unfold DistinctVariants; simp only; decide
  · refine ⟨?_, ⟨[("B", 2), ("X", 1), ("A", 0)], rfl, hlt _ (by decide)⟩, fun _ => rfl⟩
    unfold DistinctVariants; simp only; decide

theorem removed_accepted (o₁ o₂ : Bool) : ∀ e ∈ [(⟨1, o₁, false⟩ : Entry), ⟨2, o₂, false⟩],
    AcceptedEnum e removedVariants := by
  intro e he
  have hlt : ∀ (D : Discs), (∀ p ∈ D, p.2 < 2 ^ 32) → ∀ n d, D.lookup n = some d → d < 2 ^ 32 :=
    fun D h n d hl => h _ (mem_of_lookup_eq_some _ _ _ hl)
  simp only [List.mem_cons, List.not_mem_nil, or_false] at he
  rcases he with rfl | rfl
  · refine ⟨?_, ⟨[("B", 2), ("Gone", 1), ("A", 0)], rfl, hlt _ (by decide)⟩, fun _ => rfl⟩
    unfold DistinctVariants; simp only; decide
  · refine ⟨?_, ⟨[("B", 1), ("A", 0)], rfl, hlt _ (by decide)⟩, fun _ => rfl⟩
    unfold DistinctVariants; simp only; decide

/-- ```
enum E { A, B(u32), #[revision(start = 2)] X }        // with sizes, for optimised revisions
``` -/
def appendedVariants : List (VariantDecl DV) :=
  [⟨"A", { size := some .inline }, [], fun _ _ => .panic⟩,
   ⟨"B", { size := some .varlen }, [u32Field .default "field_0" {}], fun _ _ => .panic⟩,
   ⟨"X", { start := some 2, size := some .inline }, [], fun _ _ => .panic⟩]

theorem appended_accepted (o₁ o₂ : Bool) : ∀ e ∈ [(⟨1, o₁, false⟩ : Entry), ⟨2, o₂, false⟩],
    AcceptedEnum e appendedVariants := by
  intro e he
  have hlt : ∀ (D : Discs), (∀ p ∈ D, p.2 < 2 ^ 32) → ∀ n d, D.lookup n = some d → d < 2 ^ 32 :=
    fun D h n d hl => h _ (mem_of_lookup_eq_some _ _ _ hl)
  simp only [List.mem_cons, List.not_mem_nil, or_false] at he
  rcases he with rfl | rfl
  · refine ⟨?_, ⟨[("B", 1), ("A", 0)], rfl, hlt _ (by decide)⟩, fun _ => rfl⟩
    unfold DistinctVariants; simp only; decide
  · refine ⟨?_, ⟨[("X", 2), ("B", 1), ("A", 0)], rfl, hlt _ (by decide)⟩, fun _ => rfl⟩
    unfold DistinctVariants; simp only; decide

/-- A variant appended at the end moves no discriminant. -/
theorem appended_stable : StableDiscs appendedVariants 1 2 := by
  intro v hv w hw d d' hd hd'
  have hv' : v = appendedVariants[0] ∨ v = appendedVariants[1] := by
    have : v ∈ [appendedVariants[0], appendedVariants[1]] := hv
    simpa using this
  have hw' : w = appendedVariants[0] ∨ w = appendedVariants[1] ∨ w = appendedVariants[2] := by
    have : w ∈ [appendedVariants[0], appendedVariants[1], appendedVariants[2]] := hw
    simpa using this
  obtain ⟨D, hD, hl⟩ := hd
  obtain ⟨D', hD', hl'⟩ := hd'
  cases hD
  cases hD'
  rcases hv' with rfl | rfl <;> rcases hw' with rfl | rfl | rfl <;> cases hl <;> cases hl' <;> decide

theorem demo_variantEndsConverted : VariantEndsConverted insertedVariants ∧ VariantEndsConverted appendedVariants ∧
    VariantEndsConverted removedVariants := by
  refine ⟨?_, ?_, ?_⟩ <;> intro v hv <;>
    simp only [insertedVariants, appendedVariants, removedVariants, List.mem_cons, List.not_mem_nil, or_false] at hv <;>
    rcases hv with rfl | rfl | rfl <;> simp

/-- The theorems applied: legacy data although the discriminants have moved, optimised data of an older
revision whose discriminants have not, data of the current revision, and converted data. -/
example (t : Bytes) : WalkIdentifies .default [⟨1, false, false⟩, ⟨2, true, false⟩] insertedVariants (1 :: t) :=
  C59_legacy .default [⟨1, false, false⟩, ⟨2, true, false⟩] ⟨by decide, by decide, by decide⟩ insertedVariants
    demo_variantEndsConverted.1 ⟨1, false, false⟩ (.head _) rfl (inserted_accepted false true _ (.head _))
    (inserted_accepted false true _ (.tail _ (.head _))) (.inl rfl) _ t rfl

example (t : Bytes) : WalkIdentifies .default [⟨1, true, false⟩, ⟨2, true, false⟩] appendedVariants (1 :: t) :=
  C59_optimised_partial .default [⟨1, true, false⟩, ⟨2, true, false⟩] ⟨by decide, by decide, by decide⟩ appendedVariants
    demo_variantEndsConverted.2.1 ⟨1, true, false⟩ (.head _) rfl (appended_accepted true true _ (.head _))
    (appended_accepted true true _ (.tail _ (.head _))) (.inl rfl) appended_stable _ t rfl

example (t : Bytes) : WalkIdentifies .default [⟨1, true, false⟩, ⟨2, true, false⟩] removedVariants (2 :: t) :=
  C59_current .default [⟨1, true, false⟩, ⟨2, true, false⟩] ⟨by decide, by decide, by decide⟩ removedVariants
    demo_variantEndsConverted.2.2 (removed_accepted true true _ (.tail _ (.head _))) _ t rfl

theorem removed_reads (t : Bytes) :
    (enumC .default [⟨1, true, false⟩, ⟨2, false, false⟩] removedVariants).dec ([1, 65, 1, 0, 0, 0, 9] ++ t) =
      .ok (⟨"B", [DV.u32 9]⟩, t) := rfl

example (t : Bytes) :
    WalkIdentifies .default [⟨1, true, false⟩, ⟨2, false, false⟩] removedVariants ([1, 65, 1, 0, 0, 0, 9] ++ t) := by
  refine C59_converted_partial .default [⟨1, true, false⟩, ⟨2, false, false⟩] ⟨by decide, by decide, by decide⟩
    removedVariants ⟨1, true, false⟩ (.head _) (by decide) rfl rfl (removed_accepted true false _ (.tail _ (.head _)))
    _ _ rfl ?_
  intro x r hx
  cases hx
  exact ⟨_, rfl⟩

/-- A `B` written at revision 1 (discriminant 1), walked at revision 2 (where `B` has 2). -/
example : EnumNotConverted [⟨1, false, false⟩, ⟨2, true, false⟩] insertedVariants 1 ∧
    (enumC .default [⟨1, false, false⟩, ⟨2, true, false⟩] insertedVariants).dec [1, 1, 99] = .ok (⟨"B", []⟩, [99]) ∧
    walkEnum .default [⟨1, false, false⟩, ⟨2, true, false⟩] insertedVariants [1, 1, 99] = .ok (.wire 1 1, [99]) ∧
    insertedVariants.map ((EnumRepr.wire 1 1).isVariant insertedVariants 2) = [false, false, true] :=
  ⟨.inl rfl, rfl, rfl, rfl⟩

/-- A `Gone(9)` written at revision 1, walked at revision 2. -/
example : enumHasConvert removedVariants = true ∧
    (enumC .default [⟨1, true, false⟩, ⟨2, false, false⟩] removedVariants).dec [1, 65, 1, 0, 0, 0, 9] =
      .ok (⟨"B", [DV.u32 9]⟩, []) ∧
    (enumC .default [⟨1, true, false⟩, ⟨2, false, false⟩] removedVariants).enc ⟨"B", [DV.u32 9]⟩ = .ok [2, 1, 9] ∧
    walkEnum .default [⟨1, true, false⟩, ⟨2, false, false⟩] removedVariants [1, 65, 1, 0, 0, 0, 9] =
      .ok (.converted [2, 1, 9] 2 1, []) := ⟨rfl, rfl, rfl, rfl⟩

/-- A variant inserted in front of others moves their discriminants.  If the older revision was
optimised, the walker still compares with the current ones: a `B` is taken for an `X`. -/
theorem C59_moved_discriminant_false :
    ∃ (h : List Entry) (vs : List (VariantDecl DV)) (b : Bytes) (w : EnumRepr) (v : VariantDecl DV),
      ValidHistory h ∧ (∀ e ∈ h, AcceptedEnum e vs) ∧ EnumNotConverted h vs 1 ∧
      (enumC .default (h.take 1) (variantsAsOf 1 vs)).enc ⟨"B", []⟩ = .ok b ∧
      (enumC .default h vs).dec b = .ok (⟨"B", []⟩, []) ∧
      walkEnum .default h vs b = .ok (w, []) ∧ v ∈ aliveVariants vs h.length ∧ v.ident = "X" ∧
      w.isVariant vs h.length v = true :=
  ⟨[⟨1, true, false⟩, ⟨2, true, false⟩], insertedVariants, [1, 1], .borrowed [] 1, insertedVariants[1],
    ⟨by decide, by decide, by decide⟩, inserted_accepted true true, .inl rfl, rfl, rfl, rfl,
    by simp [aliveVariants, insertedVariants, VariantDecl.existsAt, existsAt], rfl, rfl⟩

/-- An enum with a convert function whose current revision is optimised: the walker takes the tag byte
of the converted value for its discriminant, and no variant is found. -/
theorem C59_converted_false :
    ∃ (h : List Entry) (vs : List (VariantDecl DV)) (b : Bytes) (w : EnumRepr),
      ValidHistory h ∧ (∀ e ∈ h, AcceptedEnum e vs) ∧
      (enumC .default (h.take 1) (variantsAsOf 1 vs)).enc ⟨"B", [DV.u32 9]⟩ = .ok b ∧
      (enumC .default h vs).dec b = .ok (⟨"B", [DV.u32 9]⟩, []) ∧
      walkEnum .default h vs b = .ok (w, []) ∧
      ∀ v ∈ aliveVariants vs h.length, w.isVariant vs h.length v = false :=
  ⟨[⟨1, false, false⟩, ⟨2, true, false⟩], removedVariants, [1, 2, 9], .converted [2, 65, 1, 0, 0, 0, 9] 2 65,
    ⟨by decide, by decide, by decide⟩, removed_accepted false true, rfl, rfl, rfl, by
      intro v hv
      have hv := (List.mem_filter.1 hv).1
      simp only [removedVariants, List.mem_cons, List.not_mem_nil, or_false] at hv
      rcases hv with rfl | rfl | rfl <;> rfl⟩

/-! ## C70 Decoding a variant through the walker -/

theorem decodeVariant_other {cfg : Cfg} {h : List Entry} {vs : List (VariantDecl V)} {v : VariantDecl V}
    {f : FieldDecl V} {s r' : Bytes} {w : EnumRepr} (hw : walkEnum cfg h vs s = .ok (w, r'))
    (hn : w.isVariant vs h.length v = false) :
    (do let w ← walkEnum cfg h vs; w.decodeVariant vs h.length v f) s = .err .deserialize := by
  rw [Rd.bind_of_ok hw]
  simp [EnumRepr.decodeVariant, hn]

/-- Data of a revision with the legacy encoding, whatever the bytes.

Missing from the full property: a field added to the variant since (`C70_added_field_false`) and a
field with `fixed` (`C70_fixed_false`) or `specialised`. -/
theorem C70_legacy_partial (cfg : Cfg) (h : List Entry) (hh : ValidHistory h) (vs : List (VariantDecl V))
    (hec : VariantEndsConverted vs) (e : Entry) (he : e ∈ h) (ho : e.optimised = false)
    (hA : AcceptedEnum e vs) (hA' : AcceptedEnum (lastEntry h) vs) (hc : EnumNotConverted h vs e.revision)
    (v : VariantDecl V) (hv : v ∈ aliveVariants vs h.length) (f : FieldDecl V)
    (hef : EndsConverted v.fields) (hf : aliveFields v.fields h.length = [f])
    (hfe : f.existsAt e.revision = true) (hp : f.opts.fixed = false ∧ f.opts.specialised = false)
    (hn : DistinctNames v.fields e.revision h.length)
    (s t : Bytes) (hs : readU16 cfg s = .ok (e.revision, t)) : WalkDecodes cfg h vs v f s := by
  intro x r hd
  obtain ⟨w, r', hw, hiff⟩ := C59_legacy cfg h hh vs hec e he ho hA hA' hc s t hs x r hd
  have hle := hh.revision_le he
  have hfit := hh.fits
  have hiffv := hiff v hv
  refine ⟨fun hx => ?_, fun hx => decodeVariant_other hw (by
    cases hq : w.isVariant vs h.length v with
    | false => rfl
    | true => exact absurd (hiffv.1 hq) hx)⟩
  rw [Rd.bind_of_ok hw]
  simp only [EnumRepr.decodeVariant, hiffv.2 hx, if_true]
  rw [enum_dec_run cfg hh he hs] at hd
  obtain ⟨d, u, t1, h1, harm, hdec⟩ := legacy_dec_inv ho hd
  obtain ⟨hum, hua, hlk⟩ := mem_variantArms.1 harm
  have hul := variant_kept hec hc hle.2 (by omega) hum hua
  obtain ⟨hvm, hva⟩ := List.mem_filter.1 hv
  have huv : u = v := by
    have hr := hh.lastEntry_revision
    rw [← hr] at hul hva
    exact hA'.same hum hul hvm hva (by rw [← hx]; exact (legacyVariant_ident (hr ▸ hul) hdec).symm)
  subst huv
  rw [walkEnum_direct cfg hh he hc hs, ho] at hw
  simp only [Bool.false_eq_true, if_false] at hw
  rw [Rd.bind_of_ok h1] at hw
  cases hw
  simp only
  unfold decodeLegacyVariant at hdec
  have hnc : NotConverted h u.fields e.revision := by
    rcases hc with hc | hc
    · left
      unfold enumHasConvert at hc
      rw [List.any_eq_false] at hc
      have := hc u hum
      simp only [Bool.or_eq_true, not_or, Bool.not_eq_true] at this
      exact this.2
    · exact .inr hc
  rw [decodeStructBody_single hn (hef.noneRemoved hnc hle.2 (by omega)) hf hfe, Rd.bind_assoc] at hdec
  obtain ⟨y, t2, hy, hdec⟩ := Rd.bind_ok.1 hdec
  rw [Rd.pure_bind, if_pos hul] at hdec
  cases hdec
  refine ⟨y, rfl, ?_⟩
  simpa [FieldDecl.legacyC, hp.1, hp.2] using hy

/-- Data of a revision with the optimised encoding, whatever the bytes.

Missing from the full property: a field added to the variant since, and discriminants that have moved
(`C59_moved_discriminant_false`). -/
theorem C70_optimised_partial (cfg : Cfg) (h : List Entry) (hh : ValidHistory h) (vs : List (VariantDecl V))
    (hec : VariantEndsConverted vs) (e : Entry) (he : e ∈ h) (ho : e.optimised = true)
    (hA : AcceptedEnum e vs) (hA' : AcceptedEnum (lastEntry h) vs) (hc : EnumNotConverted h vs e.revision)
    (hst : StableDiscs vs e.revision h.length)
    (v : VariantDecl V) (hv : v ∈ aliveVariants vs h.length) (f : FieldDecl V)
    (hf : aliveFields v.fields e.revision = [f])
    (s t : Bytes) (hs : readU16 cfg s = .ok (e.revision, t)) : WalkDecodes cfg h vs v f s := by
  intro x r hd
  obtain ⟨w, r', hw, hiff⟩ := C59_optimised_partial cfg h hh vs hec e he ho hA hA' hc hst s t hs x r hd
  have hle := hh.revision_le he
  have hfit := hh.fits
  have hiffv := hiff v hv
  refine ⟨fun hx => ?_, fun hx => decodeVariant_other hw (by
    cases hq : w.isVariant vs h.length v with
    | false => rfl
    | true => exact absurd (hiffv.1 hq) hx)⟩
  rw [Rd.bind_of_ok hw]
  simp only [EnumRepr.decodeVariant, hiffv.2 hx, if_true]
  rw [enum_dec_run cfg hh he hs] at hd
  obtain ⟨tag, d, u, t1, h1, hid, harm, hdec⟩ := optimised_dec_inv ho hd
  obtain ⟨hum, hua, hlk⟩ := mem_variantArms.1 harm
  have hul := variant_kept hec hc hle.2 (by omega) hum hua
  obtain ⟨hvm, hva⟩ := List.mem_filter.1 hv
  have huv : u = v := by
    have hr := hh.lastEntry_revision
    rw [← hr] at hul hva
    exact hA'.same hum hul hvm hva (by rw [← hx]; exact (optimisedVariant_ident (hr ▸ hul) hdec).symm)
  subst huv
  unfold decodeOptimisedVariant at hdec
  obtain ⟨body, t2, hb, hdec⟩ := Rd.bind_ok.1 hdec
  rw [walkEnum_direct cfg hh he hc hs, ho] at hw
  simp only [if_true] at hw
  rw [walkOptimised_run ho hA h1 hid harm hb] at hw
  cases hw
  obtain ⟨fields, t3, hfl, hdec⟩ := Rd.bind_ok.1 hdec
  obtain ⟨hfl, rfl⟩ := lift_run_ok.1 hfl
  rw [if_pos hul] at hdec
  cases hdec
  rw [decodeAlive_single hf] at hfl
  unfold Rd.within at hfl
  cases hy : f.plain.dec body with
  | err e => rw [Rd.bind_of_err hy] at hfl; cases hfl
  | panic => rw [Rd.bind_of_panic hy] at hfl; cases hfl
  | ok p =>
    obtain ⟨y, q⟩ := p
    rw [Rd.bind_of_ok hy] at hfl
    cases hfl
    refine ⟨y, rfl, ?_⟩
    have hw : f.plain.dec.within body = .ok y := by unfold Rd.within; rw [hy]
    exact lift_run_ok.2 ⟨hw, rfl⟩

/-- Data of an older revision of an enum with convert functions, whatever the bytes.  The convert
functions are taken to give values that can be written and read back.

Missing from the full property: a current revision with the optimised encoding
(`C59_converted_false`), and a field with `fixed` or `specialised`. -/
theorem C70_converted_partial (cfg : Cfg) (h : List Entry) (hh : ValidHistory h) (vs : List (VariantDecl V))
    (e : Entry) (he : e ∈ h) (hold : e.revision ≠ h.length) (hcv : enumHasConvert vs = true)
    (ho : (lastEntry h).optimised = false) (hA : AcceptedEnum (lastEntry h) vs)
    (v : VariantDecl V) (hv : v ∈ aliveVariants vs h.length) (f : FieldDecl V)
    (hf : aliveFields v.fields h.length = [f]) (hp : f.opts.fixed = false ∧ f.opts.specialised = false)
    (hff : f.plain.Faithful)
    (s t : Bytes) (hs : readU16 cfg s = .ok (e.revision, t))
    (hw : ∀ x r, (enumC cfg h vs).dec s = .ok (x, r) →
      (enumC cfg h vs).valid x ∧ ∃ b, (enumC cfg h vs).enc x = .ok b) :
    WalkDecodes cfg h vs v f s := by
  intro x r hd
  obtain ⟨hvx, b, hb⟩ := hw x r hd
  obtain ⟨w, r', hwalk', hiff⟩ := C59_converted_partial cfg h hh vs e he hold hcv ho hA s t hs
    (fun x r hd => (hw x r hd).2) x r hd
  obtain ⟨d, u, fb, harm, hxi, hfb, hwalk⟩ :=
    walkEnum_converted cfg h hh vs e he hold hcv ho hA s t hs x r b hd hb
  have hr := hh.lastEntry_revision
  have hiffv := hiff v hv
  refine ⟨fun hx => ?_, fun hx => decodeVariant_other hwalk' (by
    cases hq : w.isVariant vs h.length v with
    | false => rfl
    | true => exact absurd (hiffv.1 hq) hx)⟩
  have hisv := hiffv.2 hx
  rw [hwalk] at hwalk'
  cases hwalk'
  obtain ⟨hum, hua, hlk⟩ := mem_variantArms.1 harm
  obtain ⟨hvm, hva⟩ := List.mem_filter.1 hv
  rw [← hr] at hva
  have huv : u = v := hA.same hum hua hvm hva (by rw [hxi, hx])
  subst huv
  obtain ⟨id, u', harm', hxi', hvf, -⟩ := hvx
  have hu' : u' = u := by
    obtain ⟨hum', hua', -⟩ := mem_variantArms.1 harm'
    exact hA.same hum' hua' hum hua (by rw [hxi', hxi])
  subst hu'
  rw [validFields_iff, hr, hf] at hvf
  rw [hr] at hfb
  have hvw : f.variantWire (lastEntry h) = f.plain := by
    simp [FieldDecl.variantWire, ho, FieldDecl.legacyC, hp.1, hp.2]
  obtain ⟨bs, henc, rfl⟩ := serializeFields_ok (c := fun f => f.variantWire (lastEntry h)) u'.fields x.fields fb
    (by rw [hf]; exact hvf.length_eq) hfb
  rw [hf] at henc
  generalize x.fields = xf at *
  cases henc with
  | @cons _ _ y ys b1 bs1 hy henc =>
  cases henc
  cases hvf with
  | cons hyv _ =>
  simp only [hvw] at hy hyv
  refine ⟨y, rfl, ?_⟩
  rw [Rd.bind_of_ok hwalk]
  simp only [EnumRepr.decodeVariant, hisv, if_true]
  have hrt := hff.round_trip y b1 hyv hy []
  rw [List.append_nil] at hrt
  have hsl : sliceR (encU16 cfg h.length ++ (encU32 cfg d ++ [b1].flatten)) (encU16 cfg h.length ++ encU32 cfg d).length
      (encU16 cfg h.length ++ (encU32 cfg d ++ [b1].flatten)).length = .ok b1 := by
    rw [sliceR_ok (by simp) (Nat.le_refl _), slice_to_end, ← List.append_assoc, List.drop_left]
    simp
  rw [hsl]
  have hwi : f.plain.dec.within b1 = .ok y := by unfold Rd.within; rw [hrt]
  simp only [Rd.lift_ok, Rd.pure_bind, hwi]
  rfl

theorem oneField_ok (n : Nat) : DistinctNames [u32Field .default "field_0" {}] n 2 ∧
    EndsConverted [u32Field .default "field_0" {}] := by
  constructor
  · simp [DistinctNames, u32Field, tyField, FieldDecl.existsAt, existsAt]
  · simp [EndsConverted, u32Field, tyField]

example (t : Bytes) : WalkDecodes .default [⟨1, false, false⟩, ⟨2, true, false⟩] appendedVariants appendedVariants[1]
    (u32Field .default "field_0" {}) (1 :: t) :=
  C70_legacy_partial .default [⟨1, false, false⟩, ⟨2, true, false⟩] ⟨by decide, by decide, by decide⟩ appendedVariants
    demo_variantEndsConverted.2.1 ⟨1, false, false⟩ (.head _) rfl (appended_accepted false true _ (.head _))
    (appended_accepted false true _ (.tail _ (.head _))) (.inl rfl) appendedVariants[1] (.tail _ (.head _)) _
    (oneField_ok 1).2 rfl rfl ⟨rfl, rfl⟩ (oneField_ok 1).1 _ t rfl

example (t : Bytes) : WalkDecodes .default [⟨1, true, false⟩, ⟨2, true, false⟩] appendedVariants appendedVariants[1]
    (u32Field .default "field_0" {}) (1 :: t) :=
  C70_optimised_partial .default [⟨1, true, false⟩, ⟨2, true, false⟩] ⟨by decide, by decide, by decide⟩ appendedVariants
    demo_variantEndsConverted.2.1 ⟨1, true, false⟩ (.head _) rfl (appended_accepted true true _ (.head _))
    (appended_accepted true true _ (.tail _ (.head _))) (.inl rfl) appended_stable appendedVariants[1] (.tail _ (.head _)) _
    rfl _ t rfl

example (t : Bytes) : WalkDecodes .default [⟨1, true, false⟩, ⟨2, false, false⟩] removedVariants removedVariants[2]
    (u32Field .default "field_0" {}) ([1, 65, 1, 0, 0, 0, 9] ++ t) := by
  refine C70_converted_partial .default [⟨1, true, false⟩, ⟨2, false, false⟩] ⟨by decide, by decide, by decide⟩
    removedVariants ⟨1, true, false⟩ (.head _) (by decide) rfl rfl (removed_accepted true false _ (.tail _ (.head _)))
    removedVariants[2] (.tail _ (.head _)) _ rfl ⟨rfl, rfl⟩
    (tyField_wire_faithful .default demoEnv_lawful (fun i => nomatch i) "field_0" {} (.int .u32) demoDflt demoConvert
      ⟨1, false, false⟩) _ _ rfl ?_
  intro x r hx
  cases hx
  exact ⟨⟨1, removedVariants[2], by rw [mem_variantArms]; exact ⟨.tail _ (.tail _ (.head _)), rfl, rfl⟩, rfl,
    ⟨⟨_, rfl, trivial⟩, rfl⟩, fun ho => by cases ho⟩, _, rfl⟩

/-- `B(9)` through each kind of walker, and a `Gone(9)` that becomes one. -/
example :
    let read (h : List Entry) : Rd DV := do
      let w ← walkEnum .default h removedVariants
      w.decodeVariant removedVariants 2 removedVariants[2] (u32Field .default "field_0" {})
    aliveFields removedVariants[2].fields 2 = [u32Field .default "field_0" {}] ∧
    read [⟨1, true, false⟩, ⟨2, false, false⟩] [2, 1, 9, 99] = .ok (DV.u32 9, [99]) ∧
    read [⟨1, true, false⟩, ⟨2, true, false⟩] [2, 65, 1, 0, 0, 0, 9, 99] = .ok (DV.u32 9, [99]) ∧
    read [⟨1, true, false⟩, ⟨2, false, false⟩] [1, 65, 1, 0, 0, 0, 9, 99] = .ok (DV.u32 9, [99]) ∧
    read [⟨1, true, false⟩, ⟨2, false, false⟩] [2, 0, 99] = .err .deserialize := ⟨rfl, rfl, rfl, rfl, rfl⟩

/-- A variant `A(u32)` whose field was added in revision 2: the walker of a revision-1 `A` reads the
field from whatever follows the value. -/
theorem C70_added_field_false :
    ∃ (h : List Entry) (vs : List (VariantDecl DV)) (v : VariantDecl DV) (f : FieldDecl DV) (b : Bytes),
      ValidHistory h ∧ (∀ e ∈ h, AcceptedEnum e vs) ∧ v ∈ aliveVariants vs h.length ∧
      aliveFields v.fields h.length = [f] ∧
      (enumC .default (h.take 1) (variantsAsOf 1 vs)).enc ⟨"A", []⟩ = .ok b ∧
      (enumC .default h vs).dec (b ++ [7]) = .ok (⟨"A", [DV.u32 1]⟩, [7]) ∧
      (do let w ← walkEnum .default h vs; w.decodeVariant vs h.length v f) (b ++ [7]) = .ok (DV.u32 7, []) := by
  refine ⟨[⟨1, false, false⟩, ⟨2, false, false⟩],
    [⟨"A", {}, [u32Field .default "field_0" { start := some 2, default := some "…" }], fun _ _ => .panic⟩], _, _,
    [1, 0], ⟨by decide, by decide, by decide⟩, ?_, List.mem_singleton_self _, rfl, rfl, rfl, rfl⟩
  intro e he
  have hlt : ∀ (D : Discs), (∀ p ∈ D, p.2 < 2 ^ 32) → ∀ n d, D.lookup n = some d → d < 2 ^ 32 :=
    fun D h n d hl => h _ (mem_of_lookup_eq_some _ _ _ hl)
  simp only [List.mem_cons, List.not_mem_nil, or_false] at he
  rcases he with rfl | rfl <;>
  · refine ⟨?_, ⟨[("A", 0)], rfl, hlt _ (by decide)⟩, fun h => by cases h⟩
    unfold DistinctVariants; simp only; decide

/-- A variant `A(#[revision(fixed)] u32)` at a legacy revision. -/
theorem C70_fixed_false :
    ∃ (h : List Entry) (vs : List (VariantDecl DV)) (v : VariantDecl DV) (f : FieldDecl DV) (b : Bytes),
      ValidHistory h ∧ (∀ e ∈ h, AcceptedEnum e vs) ∧ v ∈ aliveVariants vs h.length ∧
      aliveFields v.fields h.length = [f] ∧
      (enumC .default h vs).enc ⟨"A", [DV.u32 513]⟩ = .ok b ∧
      (enumC .default h vs).dec b = .ok (⟨"A", [DV.u32 513]⟩, []) ∧
      (do let w ← walkEnum .default h vs; w.decodeVariant vs h.length v f) b = .ok (DV.u32 1, [2, 0, 0]) := by
  refine ⟨[⟨1, false, false⟩],
    [⟨"A", {}, [u32Field .default "field_0" { fixed := true }], fun _ _ => .panic⟩], _, _,
    [1, 0, 1, 2, 0, 0], ⟨by decide, by decide, by decide⟩, ?_, List.mem_singleton_self _, rfl, rfl, rfl, rfl⟩
  intro e he
  have hlt : ∀ (D : Discs), (∀ p ∈ D, p.2 < 2 ^ 32) → ∀ n d, D.lookup n = some d → d < 2 ^ 32 :=
    fun D h n d hl => h _ (mem_of_lookup_eq_some _ _ _ hl)
  simp only [List.mem_cons, List.not_mem_nil, or_false] at he
  subst he
  refine ⟨?_, ⟨[("A", 0)], rfl, hlt _ (by decide)⟩, fun h => by cases h⟩
  unfold DistinctVariants; simp only; decide

/-! ## C51 Unknown revisions are refused -/

/-- Walking an enum whose header is not one of the type's revisions fails with the deserialisation error. -/
theorem C51_unknown_revision_walk_enum (cfg : Cfg) (h : List Entry) (hh : ValidHistory h) (vs : List (VariantDecl V)) (s r t)
    (hs : readU16 cfg s = .ok (r, t)) (hr : r = 0 ∨ h.length < r) : walkEnum cfg h vs s = .err .deserialize := by
  unfold walkEnum
  rw [Rd.bind_of_ok hs, if_pos (by rw [hh.latest_eq]; exact hr)]
  rfl

example : walkEnum .default [⟨1, false, false⟩, ⟨2, true, false⟩] insertedVariants [3, 1, 99] = .err .deserialize ∧
    walkEnum .default [⟨1, false, false⟩, ⟨2, true, false⟩] insertedVariants [0, 1, 99] = .err .deserialize :=
  ⟨C51_unknown_revision_walk_enum .default _ (by exact ⟨by decide, by decide, by decide⟩) _ _ 3 [1, 99] rfl (.inr (by decide)),
    C51_unknown_revision_walk_enum .default _ (by exact ⟨by decide, by decide, by decide⟩) _ _ 0 [1, 99] rfl (.inl rfl)⟩

end Revision
