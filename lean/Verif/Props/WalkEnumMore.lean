import Verif.Spec.WalkEnum
import Verif.Props.DeriveWalkEnum
import Verif.Props.Optimised
import Verif.Proofs.Wire
import Verif.Proofs.DeriveStream

/-! # C89: what the walkers of derived enums hand out -/

namespace Revision

variable {V : Type}

theorem readBorrowed_iff {n : Nat} {s b r : Bytes} :
    readBorrowed n s = .ok (b, r) ↔ b.length = n ∧ s = b ++ r := by
  constructor
  · intro h
    unfold readBorrowed at h
    obtain ⟨b', s', h1, h⟩ := Rd.bind_ok.1 h
    obtain ⟨u, r', h2, h⟩ := Rd.bind_ok.1 h
    cases h
    unfold Rd.peek at h1
    unfold Rd.advance at h2
    simp only at h1 h2
    by_cases hl : n ≤ s.length
    · rw [if_pos hl] at h1; cases h1
      rw [if_pos hl] at h2; cases h2
      exact ⟨by rw [List.length_take]; omega, (List.take_append_drop n s).symm⟩
    · rw [if_neg hl] at h1; cases h1
  · rintro ⟨rfl, rfl⟩
    exact readBorrowed_of_readExact (Rd.readExact_append b r _ rfl)

theorem readOptimisedTag_iff {s r : Bytes} {tag : Tag} {sc : SizeClass} :
    readOptimisedTag s = .ok ((tag, sc), r) ↔ s = tag :: r ∧ Tag.sizeClass tag = .ok sc := by
  unfold readOptimisedTag
  constructor
  · intro h
    obtain ⟨b, s1, h1, h⟩ := Rd.bind_ok.1 h
    obtain ⟨sc', s2, h2, h⟩ := Rd.bind_ok.1 h
    obtain ⟨h3, h4⟩ := lift_run_ok.1 h2
    cases h
    cases s with
    | nil => cases h1
    | cons x xs => cases h1; exact ⟨by rw [h4], h3⟩
  · rintro ⟨rfl, h⟩
    rw [Rd.bind_of_ok (Rd.readByte_cons tag r), h]
    rfl

theorem kind_cls (tag : UInt8) (d : Nat) (hd : d < 32) (size : VariantSize) :
    ((Tag.variantId tag).toNat = d ∧ Tag.sizeClass tag = .ok size.cls) ↔
      tag.toNat % 128 = d + 32 * Wire.kind size := by
  obtain ⟨h1, h2⟩ := C30_read tag
  rw [h1, h2]
  cases size <;> simp only [Wire.kind, VariantSize.cls]
  all_goals
    constructor
    · rintro ⟨ha, hb⟩
      repeat' split at hb
      all_goals first | omega | (cases hb; done) | (cases hb; omega)
    · intro ha
      refine ⟨by omega, ?_⟩
      repeat' split
      all_goals first | rfl | omega

theorem payload_iff {size : VariantSize} {t body r : Bytes} :
    (match size with
      | .inline => pure []
      | .fixed n => readBorrowed n
      | .varlen => do
        let len ← readVarlenLen
        readBorrowed len : Rd Bytes) t = .ok (body, r) ↔
      ∃ p, Wire.Payload size body p ∧ t = p ++ r := by
  cases size with
  | inline =>
    constructor
    · intro h; cases h; exact ⟨[], .inline, rfl⟩
    · rintro ⟨p, hp, rfl⟩; cases hp; rfl
  | fixed n =>
    simp only [readBorrowed_iff]
    constructor
    · rintro ⟨h1, h2⟩; exact ⟨body, .fixed h1, h2⟩
    · rintro ⟨p, hp, rfl⟩; cases hp; exact ⟨by assumption, rfl⟩
  | varlen =>
    constructor
    · intro h0
      obtain ⟨n, t1, h1, h2⟩ := Rd.bind_ok.1 h0
      obtain ⟨hn, h3⟩ := readVarlenLen_ok h1
      obtain ⟨h4, h5⟩ := readBorrowed_iff.1 h2
      subst h4 h5 h3
      exact ⟨_, .varlen hn, by rw [leBytes_eq_le, List.append_assoc]⟩
    · rintro ⟨p, hp, rfl⟩
      cases hp with
      | varlen hl =>
      rw [← leBytes_eq_le, List.append_assoc]
      exact Rd.bind_ok.2 ⟨_, _, readVarlenLen_append _ hl _, readBorrowed_iff.2 ⟨rfl, rfl⟩⟩

/-! ## Walking an optimised enum -/

/-- C89: at an optimised revision a walk succeeds on exactly the bytes that start with the tag of a
variant of that revision and its payload, whatever the payload; the walker stands after them. -/
theorem C89_walk_optimised (cfg : Cfg) (h : List Entry) (hh : ValidHistory h) (vs : List (VariantDecl V))
    (e : Entry) (he : e ∈ h) (ho : e.optimised = true) (hA : AcceptedEnum e vs)
    (hc : EnumNotConverted h vs e.revision) (s t : Bytes) (hs : readU16 cfg s = .ok (e.revision, t))
    (w : EnumRepr) (r : Bytes) :
    walkEnum cfg h vs s = .ok (w, r) ↔
      ∃ v ∈ aliveVariants vs e.revision, ∃ d body out, v.discAt vs e.revision d ∧
        Wire.Tagged d (v.opts.size.getD .inline) body out ∧ t = out ++ r ∧ w = .borrowed body d := by
  rw [walkEnum_direct cfg hh he hc hs, ho]
  simp only [if_true]
  constructor
  · intro hw
    unfold walkOptimisedEnum at hw
    obtain ⟨⟨tag, sc⟩, t1, h1, hw'⟩ := Rd.bind_ok.1 hw
    obtain ⟨rfl, hsc⟩ := readOptimisedTag_iff.1 h1
    clear hw
    have hw := hw'
    simp only at hw
    cases htab : walkTable vs e.revision (Tag.variantId tag).toNat with
    | none => rw [htab] at hw; cases hw
    | some size =>
      rw [htab] at hw
      simp only at hw
      by_cases hcls : size.cls = sc
      · subst hcls
        simp only [bne_self_eq_false, Bool.false_eq_true, if_false] at hw
        obtain ⟨body, r', hb, hw⟩ := Rd.bind_ok.1 hw
        cases hw
        obtain ⟨p, hp, rfl⟩ := payload_iff.1 hb
        unfold walkTable at htab
        cases hf : (variantArms vs e.revision).findRev? (fun a => a.1 == (Tag.variantId tag).toNat) with
        | none => rw [hf] at htab; cases htab
        | some a =>
          rw [hf] at htab
          cases htab
          obtain ⟨d, v⟩ := a
          rw [List.findRev?_eq_find?_reverse] at hf
          have hmem := List.mem_reverse.1 (List.mem_of_find?_eq_some hf)
          have hd := List.find?_some hf
          simp only [beq_iff_eq] at hd
          subst hd
          obtain ⟨hvm, hva, hlk⟩ := mem_variantArms.1 hmem
          refine ⟨v, List.mem_filter.2 ⟨hvm, hva⟩, _, body, tag :: p, discAt_of_arm hA hmem, ⟨tag, p, ?_, hp, rfl⟩, rfl, rfl⟩
          exact (kind_cls tag _ (hA.disc_lt_32 ho hmem) _).1 ⟨rfl, hsc⟩
      · rw [if_pos (by simpa using hcls)] at hw
        cases hw
  · rintro ⟨v, hv, d, body, out, hd, ⟨tag, p, htag, hp, rfl⟩, rfl, rfl⟩
    obtain ⟨hvm, hva⟩ := List.mem_filter.1 hv
    have harm := mem_variantArms.2 ⟨hvm, hva, lookup_of_discAt hd⟩
    have hd32 := hA.disc_lt_32 ho harm
    simp only at hd32
    obtain ⟨hid, hsc⟩ := (kind_cls tag d hd32 _).2 htag
    unfold walkOptimisedEnum
    rw [List.cons_append, Rd.bind_of_ok (readOptimisedTag_iff.2 ⟨rfl, hsc⟩)]
    have htab : walkTable vs e.revision d = some (v.opts.size.getD .inline) := by
      unfold walkTable
      rw [findRev?_unique (a := (d, v)) harm (by simp) fun b hb hp => hA.arm_disc hb harm (by simpa using hp)]
    simp only [hid, htab, bne_self_eq_false, Bool.false_eq_true, if_false]
    exact Rd.bind_ok.2 ⟨body, r, payload_iff.2 ⟨p, hp, rfl⟩, rfl⟩

/-! ## Unit variants, and calls on the wrong variant -/

/-- C89: `into_<v>` and `decode_<v>` of a unit variant succeed if and only if deserialising gives that
variant, whatever the bytes.  That the walker identifies the variant is `C59`. -/
theorem C89_unit (cfg : Cfg) (h : List Entry) (vs : List (VariantDecl V)) (s : Bytes)
    (hi : WalkIdentifies cfg h vs s) (x : EnumVal V) (r : Bytes) (hd : (enumC cfg h vs).dec s = .ok (x, r))
    (v : VariantDecl V) (hv : v ∈ aliveVariants vs h.length) :
    (x.variant = v.ident → ∃ r', walkThen cfg h vs (fun w => w.intoUnit vs h.length v) s = .ok ((), r')) ∧
    (x.variant ≠ v.ident → walkThen cfg h vs (fun w => w.intoUnit vs h.length v) s = .err .deserialize) := by
  obtain ⟨w, r', hw, hiff⟩ := hi x r hd
  unfold walkThen
  rw [Rd.bind_of_ok hw]
  constructor
  · intro hx
    exact ⟨r', by simp [EnumRepr.intoUnit, (hiff v hv).2 hx]⟩
  · intro hx
    have : w.isVariant vs h.length v = false := by
      cases hq : w.isVariant vs h.length v with
      | false => rfl
      | true => exact absurd ((hiff v hv).1 hq) hx
    simp [EnumRepr.intoUnit, this]

/-- C89: the calls that hand out a payload are refused on any other variant. -/
theorem C89_other (cfg : Cfg) (h : List Entry) (vs : List (VariantDecl V)) (s : Bytes)
    (hi : WalkIdentifies cfg h vs s) (x : EnumVal V) (r : Bytes) (hd : (enumC cfg h vs).dec s = .ok (x, r))
    (v : VariantDecl V) (hv : v ∈ aliveVariants vs h.length) (hx : x.variant ≠ v.ident)
    (f : FieldDecl V) (inner : Rd ω) :
    walkThen cfg h vs (fun w => w.intoVariant vs h.length v inner) s = .err .deserialize ∧
    walkThen cfg h vs (fun w => w.viewSingle vs h.length v f) s = .err .deserialize ∧
    walkThen cfg h vs (fun w => w.viewMulti vs h.length v) s = .err .deserialize := by
  obtain ⟨w, r', hw, hiff⟩ := hi x r hd
  have hn : w.isVariant vs h.length v = false := by
    cases hq : w.isVariant vs h.length v with
    | false => rfl
    | true => exact absurd ((hiff v hv).1 hq) hx
  unfold walkThen
  refine ⟨?_, ?_, ?_⟩ <;> rw [Rd.bind_of_ok hw]
  · simp [EnumRepr.intoVariant, hn]
  · simp [EnumRepr.viewSingle, hn]
  · simp [EnumRepr.viewMulti, hn]

/-! ## The payload -/

/-- C89: legacy data.  `into_<v>` runs the walker of the field's type exactly where the field is read
from, the view holds the encoding of the field's value and leaves the reader where deserialising does,
and the view of a variant with several fields is refused.

Missing from the full property: as for `C70_legacy_partial`. -/
theorem C89_legacy_partial (cfg : Cfg) (h : List Entry) (hh : ValidHistory h) (vs : List (VariantDecl V))
    (hec : VariantEndsConverted vs) (e : Entry) (he : e ∈ h) (ho : e.optimised = false)
    (hA : AcceptedEnum e vs) (hA' : AcceptedEnum (lastEntry h) vs) (hc : EnumNotConverted h vs e.revision)
    (v : VariantDecl V) (hv : v ∈ aliveVariants vs h.length)
    (s t : Bytes) (hs : readU16 cfg s = .ok (e.revision, t)) (x : EnumVal V) (r : Bytes)
    (hd : (enumC cfg h vs).dec s = .ok (x, r)) (hx : x.variant = v.ident) :
    walkThen cfg h vs (fun w => w.viewMulti vs h.length v) s = .err .conversion ∧
    ∀ (f : FieldDecl V) (_ : EndsConverted v.fields) (_ : aliveFields v.fields h.length = [f])
      (_ : f.existsAt e.revision = true) (_ : f.opts.fixed = false ∧ f.opts.specialised = false)
      (_ : DistinctNames v.fields e.revision h.length),
      ∃ d y p, readU32 cfg t = .ok (d, p) ∧ v.discAt vs e.revision d ∧
        x.fields = [y] ∧ f.plain.dec p = .ok (y, r) ∧
        (∀ (ω : Type) (inner : Rd ω), walkThen cfg h vs (fun w => w.intoVariant vs h.length v inner) s = inner p) ∧
        ∀ b, f.plain.enc y = .ok b → walkThen cfg h vs (fun w => w.viewSingle vs h.length v f) s = .ok (b, r) := by
  obtain ⟨w, r', hw, hiff⟩ := C59_legacy cfg h hh vs hec e he ho hA hA' hc s t hs x r hd
  have hisv := (hiff v hv).2 hx
  have hle := hh.revision_le he
  have hfit := hh.fits
  have hd' := hd
  rw [enum_dec_run cfg hh he hs] at hd'
  obtain ⟨d, u, t1, h1, harm, hdec⟩ := legacy_dec_inv ho hd'
  obtain ⟨hum, hua, hlk⟩ := mem_variantArms.1 harm
  have hul := variant_kept hec hc hle.2 (by omega) hum hua
  obtain ⟨hvm, hva⟩ := List.mem_filter.1 hv
  have huv : u = v := by
    have hr := hh.lastEntry_revision
    rw [← hr] at hul hva
    exact hA'.same hum hul hvm hva (by rw [← hx]; exact (legacyVariant_ident (hr ▸ hul) hdec).symm)
  subst huv
  have hw' := hw
  rw [walkEnum_direct cfg hh he hc hs, ho] at hw'
  simp only [Bool.false_eq_true, if_false] at hw'
  rw [Rd.bind_of_ok h1] at hw'
  cases hw'
  unfold walkThen
  refine ⟨?_, ?_⟩
  · rw [Rd.bind_of_ok hw]
    simp [EnumRepr.viewMulti, hisv]
  · intro f hef hf hfe hp hn
    obtain ⟨y, hxy, hrun⟩ :=
      (C70_legacy_partial cfg h hh vs hec e he ho hA hA' hc u hv f hef hf hfe hp hn s t hs x r hd).1 hx
    rw [Rd.bind_of_ok hw] at hrun
    simp only [EnumRepr.decodeVariant, hisv, if_true] at hrun
    refine ⟨d, y, r', h1, discAt_of_arm hA harm, hxy, hrun, ?_, ?_⟩
    · intro ω inner
      rw [Rd.bind_of_ok hw]
      simp only [EnumRepr.intoVariant, hisv, if_true]
    · intro b hb
      rw [Rd.bind_of_ok hw]
      simp only [EnumRepr.viewSingle, hisv, if_true]
      rw [Rd.bind_of_ok hrun, hb]
      rfl

/-- C89: optimised data.  Views of any variant hold exactly its payload, from which deserialising reads
the fields, and leave the reader where deserialising does; `into_<v>` is refused.

Missing from the full property: as for `C59_optimised_partial`. -/
theorem C89_optimised_partial (cfg : Cfg) (h : List Entry) (hh : ValidHistory h) (vs : List (VariantDecl V))
    (hec : VariantEndsConverted vs) (e : Entry) (he : e ∈ h) (ho : e.optimised = true)
    (hA : AcceptedEnum e vs) (hA' : AcceptedEnum (lastEntry h) vs) (hc : EnumNotConverted h vs e.revision)
    (hst : StableDiscs vs e.revision h.length)
    (v : VariantDecl V) (hv : v ∈ aliveVariants vs h.length)
    (s t : Bytes) (hs : readU16 cfg s = .ok (e.revision, t)) (x : EnumVal V) (r : Bytes)
    (hd : (enumC cfg h vs).dec s = .ok (x, r)) (hx : x.variant = v.ident) :
    ∃ d body out, v.discAt vs e.revision d ∧ Wire.Tagged d (v.opts.size.getD .inline) body out ∧
      t = out ++ r ∧
      (∀ f, walkThen cfg h vs (fun w => w.viewSingle vs h.length v f) s = .ok (body, r)) ∧
      walkThen cfg h vs (fun w => w.viewMulti vs h.length v) s = .ok (body, r) ∧
      (∀ (ω : Type) (inner : Rd ω),
        walkThen cfg h vs (fun w => w.intoVariant vs h.length v inner) s = .err .conversion) ∧
      ∃ rest, (decodeAlive e.revision v.fields) body = .ok (x.fields, rest) := by
  obtain ⟨w, r', hw, hiff⟩ := C59_optimised_partial cfg h hh vs hec e he ho hA hA' hc hst s t hs x r hd
  have hisv := (hiff v hv).2 hx
  have hle := hh.revision_le he
  have hfit := hh.fits
  rw [enum_dec_run cfg hh he hs] at hd
  obtain ⟨tag, d, u, t1, h1, hid, harm, hdec⟩ := optimised_dec_inv ho hd
  obtain ⟨hum, hua, hlk⟩ := mem_variantArms.1 harm
  have hul := variant_kept hec hc hle.2 (by omega) hum hua
  obtain ⟨hvm, hva⟩ := List.mem_filter.1 hv
  have huv : u = v := by
    have hr := hh.lastEntry_revision
    rw [← hr] at hul hva
    exact hA'.same hum hul hvm hva (by rw [← hx]; exact (optimisedVariant_ident (hr ▸ hul) hdec).symm)
  subst huv
  unfold decodeOptimisedVariant at hdec
  obtain ⟨body, t2, hb, hdec1⟩ := Rd.bind_ok.1 hdec
  have hw' := hw
  rw [walkEnum_direct cfg hh he hc hs, ho] at hw'
  simp only [if_true] at hw'
  rw [walkOptimised_run ho hA h1 hid harm hb] at hw'
  cases hw'
  obtain ⟨fields, t3, hfl, hdec2⟩ := Rd.bind_ok.1 hdec1
  obtain ⟨hfl', hrest⟩ := lift_run_ok.1 hfl
  rw [if_pos hul] at hdec2
  cases hdec2
  subst hrest
  obtain ⟨v', hv', d', body', out, hda, htg, hto, hwe⟩ :=
    (C89_walk_optimised cfg h hh vs e he ho hA hc s t hs _ _).1 hw
  cases hwe
  obtain ⟨hvm', hva'⟩ := List.mem_filter.1 hv'
  have hsame := hA.arm_disc harm (mem_variantArms.2 ⟨hvm', hva', lookup_of_discAt hda⟩) rfl
  cases hsame
  refine ⟨d, body, out, hda, htg, hto, ?_, ?_, ?_, ?_⟩
  · intro f
    unfold walkThen
    rw [Rd.bind_of_ok hw]
    simp [EnumRepr.viewSingle, hisv]
  · unfold walkThen
    rw [Rd.bind_of_ok hw]
    simp [EnumRepr.viewMulti, hisv]
  · intro ω inner
    unfold walkThen
    rw [Rd.bind_of_ok hw]
    simp [EnumRepr.intoVariant, hisv]
  · unfold Rd.within at hfl'
    cases hy : (decodeAlive e.revision u.fields) body with
    | err e => rw [hy] at hfl'; cases hfl'
    | panic => rw [hy] at hfl'; cases hfl'
    | ok p =>
      obtain ⟨y, q⟩ := p
      rw [hy] at hfl'
      cases hfl'
      exact ⟨q, rfl⟩

/-- C89: data of an older revision of an enum with convert functions.  Views of any variant hold exactly
the encoding of the converted fields, one after another, and leave the reader where deserialising
does; `into_<v>` is refused.

Missing from the full property: as for `C59_converted_partial`. -/
theorem C89_converted_partial (cfg : Cfg) (h : List Entry) (hh : ValidHistory h) (vs : List (VariantDecl V))
    (e : Entry) (he : e ∈ h) (hold : e.revision ≠ h.length) (hcv : enumHasConvert vs = true)
    (ho : (lastEntry h).optimised = false) (hA : AcceptedEnum (lastEntry h) vs)
    (v : VariantDecl V) (hv : v ∈ aliveVariants vs h.length)
    (s t : Bytes) (hs : readU16 cfg s = .ok (e.revision, t)) (x : EnumVal V) (r b : Bytes)
    (hd : (enumC cfg h vs).dec s = .ok (x, r)) (hvx : (enumC cfg h vs).valid x)
    (hb : (enumC cfg h vs).enc x = .ok b) (hx : x.variant = v.ident) :
    ∃ bs, Encodes (fun f => f.legacyC) (aliveFields v.fields h.length) x.fields bs ∧
      (∀ f, walkThen cfg h vs (fun w => w.viewSingle vs h.length v f) s = .ok (bs.flatten, r)) ∧
      walkThen cfg h vs (fun w => w.viewMulti vs h.length v) s = .ok (bs.flatten, r) ∧
      ∀ (ω : Type) (inner : Rd ω),
        walkThen cfg h vs (fun w => w.intoVariant vs h.length v inner) s = .err .conversion := by
  obtain ⟨d, u, fb, harm, hxi, hfb, hwalk⟩ :=
    walkEnum_converted cfg h hh vs e he hold hcv ho hA s t hs x r b hd hb
  have hr := hh.lastEntry_revision
  obtain ⟨hum, hua, hlk⟩ := mem_variantArms.1 harm
  obtain ⟨hvm, hva⟩ := List.mem_filter.1 hv
  rw [← hr] at hva
  have huv : u = v := hA.same hum hua hvm hva (by rw [hxi, hx])
  subst huv
  obtain ⟨id, u', harm', hxi', hvf, -⟩ := hvx
  have hu' : u' = u := by
    obtain ⟨hum', hua', -⟩ := mem_variantArms.1 harm'
    exact hA.same hum' hua' hum hua (by rw [hxi', hxi])
  subst hu'
  rw [validFields_iff] at hvf
  obtain ⟨bs, henc, rfl⟩ := serializeFields_ok (c := fun f => f.variantWire (lastEntry h)) u'.fields x.fields fb
    hvf.length_eq hfb
  have hisv : (EnumRepr.converted (encU16 cfg h.length ++ (encU32 cfg d ++ bs.flatten))
      (encU16 cfg h.length ++ encU32 cfg d).length d).isVariant vs h.length u' = true := by
    simp only [EnumRepr.isVariant, beq_iff_eq]
    rw [← hr]; exact hlk
  have hdrop : (encU16 cfg h.length ++ (encU32 cfg d ++ bs.flatten)).drop
      (encU16 cfg h.length ++ encU32 cfg d).length = bs.flatten := by
    rw [← List.append_assoc, List.drop_left]
  refine ⟨bs, ?_, ?_, ?_, ?_⟩
  · rw [hr] at henc
    exact henc.congr fun f _ => by simp [FieldDecl.variantWire, ho]
  · intro f
    unfold walkThen
    rw [Rd.bind_of_ok hwalk]
    simp only [EnumRepr.viewSingle, hisv, if_true, hdrop]
    rfl
  · unfold walkThen
    rw [Rd.bind_of_ok hwalk]
    simp only [EnumRepr.viewMulti, hisv, if_true, hdrop]
    rfl
  · intro ω inner
    unfold walkThen
    rw [Rd.bind_of_ok hwalk]
    simp only [EnumRepr.intoVariant, hisv, if_true]
    rfl

/-- The theorems applied to a `B(9)`: the tag and payload of the current revision; legacy data of an
older revision; optimised data of an older revision; a `Gone(9)` that is converted. -/
example (t : Bytes) : walkEnum .default [⟨1, true, false⟩, ⟨2, true, false⟩] appendedVariants
    ([1, 65, 1, 0, 0, 0, 9] ++ t) = .ok (.borrowed [9] 1, t) :=
  (C89_walk_optimised .default [⟨1, true, false⟩, ⟨2, true, false⟩] ⟨by decide, by decide, by decide⟩ appendedVariants
    ⟨1, true, false⟩ (.head _) rfl (appended_accepted true true _ (.head _)) (.inl rfl) _ ([65, 1, 0, 0, 0, 9] ++ t) rfl
    _ _).2 ⟨appendedVariants[1], .tail _ (.head _), 1, [9], [65, 1, 0, 0, 0, 9], ⟨_, rfl, rfl⟩,
      ⟨65, _, rfl, .varlen (by decide), rfl⟩, rfl, rfl⟩

example (t : Bytes) : ∃ d y p, readU32 .default ([1, 9] ++ t) = .ok (d, p) ∧
    appendedVariants[1].discAt appendedVariants 1 d ∧ [DV.u32 9] = [y] ∧
    (∀ (ω : Type) (inner : Rd ω), walkThen .default [⟨1, false, false⟩, ⟨2, true, false⟩] appendedVariants
      (fun w => w.intoVariant appendedVariants 2 appendedVariants[1] inner) ([1, 1, 9] ++ t) = inner p) ∧
    (∀ b, (u32Field .default "field_0" {}).plain.enc y = .ok b →
      walkThen .default [⟨1, false, false⟩, ⟨2, true, false⟩] appendedVariants
        (fun w => w.viewSingle appendedVariants 2 appendedVariants[1] (u32Field .default "field_0" {}))
        ([1, 1, 9] ++ t) = .ok (b, t)) := by
  obtain ⟨d, y, p, h1, h2, h3, -, h5, h6⟩ := (C89_legacy_partial .default [⟨1, false, false⟩, ⟨2, true, false⟩]
    ⟨by decide, by decide, by decide⟩ appendedVariants
    demo_variantEndsConverted.2.1 ⟨1, false, false⟩ (.head _) rfl (appended_accepted false true _ (.head _))
    (appended_accepted false true _ (.tail _ (.head _))) (.inl rfl) appendedVariants[1] (.tail _ (.head _))
    ([1, 1, 9] ++ t) ([1, 9] ++ t) rfl ⟨"B", [DV.u32 9]⟩ t rfl rfl).2 (u32Field .default "field_0" {})
    (oneField_ok 1).2 rfl rfl ⟨rfl, rfl⟩ (oneField_ok 1).1
  exact ⟨d, y, p, h1, h2, h3, h5, h6⟩

example (t : Bytes) : ∃ d body out, appendedVariants[1].discAt appendedVariants 1 d ∧
    Wire.Tagged d .varlen body out ∧ [65, 1, 0, 0, 0, 9] ++ t = out ++ t ∧
    walkThen .default [⟨1, true, false⟩, ⟨2, true, false⟩] appendedVariants
      (fun w => w.viewMulti appendedVariants 2 appendedVariants[1]) ([1, 65, 1, 0, 0, 0, 9] ++ t) = .ok (body, t) := by
  obtain ⟨d, body, out, h1, h2, h3, -, h4, -⟩ := C89_optimised_partial .default [⟨1, true, false⟩, ⟨2, true, false⟩]
    ⟨by decide, by decide, by decide⟩ appendedVariants
    demo_variantEndsConverted.2.1 ⟨1, true, false⟩ (.head _) rfl (appended_accepted true true _ (.head _))
    (appended_accepted true true _ (.tail _ (.head _))) (.inl rfl) appended_stable appendedVariants[1]
    (.tail _ (.head _)) ([1, 65, 1, 0, 0, 0, 9] ++ t) ([65, 1, 0, 0, 0, 9] ++ t) rfl ⟨"B", [DV.u32 9]⟩ t rfl rfl
  exact ⟨d, body, out, h1, h2, h3, h4⟩

example (t : Bytes) : ∃ bs, Encodes (fun f => f.legacyC) [u32Field .default "field_0" {}] [DV.u32 9] bs ∧
    walkThen .default [⟨1, true, false⟩, ⟨2, false, false⟩] removedVariants
      (fun w => w.viewMulti removedVariants 2 removedVariants[2]) ([1, 65, 1, 0, 0, 0, 9] ++ t) =
        .ok (bs.flatten, t) := by
  obtain ⟨bs, h1, -, h2, -⟩ := C89_converted_partial .default [⟨1, true, false⟩, ⟨2, false, false⟩]
    ⟨by decide, by decide, by decide⟩ removedVariants ⟨1, true, false⟩ (.head _) (by decide) rfl rfl
    (removed_accepted true false _ (.tail _ (.head _))) removedVariants[2] (.tail _ (.head _))
    ([1, 65, 1, 0, 0, 0, 9] ++ t) ([65, 1, 0, 0, 0, 9] ++ t) rfl ⟨"B", [DV.u32 9]⟩ t [2, 1, 9] rfl
    ⟨1, removedVariants[2], by rw [mem_variantArms]; exact ⟨.tail _ (.tail _ (.head _)), rfl, rfl⟩, rfl,
      ⟨⟨_, rfl, trivial⟩, rfl⟩, fun ho => by cases ho⟩ rfl rfl
  exact ⟨bs, h1, h2⟩

/-- On a `B(9)` the unit call for `A` and the payload calls for another variant are refused. -/
example (t : Bytes) :
    walkThen .default [⟨1, true, false⟩, ⟨2, true, false⟩] removedVariants
        (fun w => w.intoUnit removedVariants 2 removedVariants[0]) ([2, 65, 1, 0, 0, 0, 9] ++ t) = .err .deserialize ∧
      walkThen .default [⟨1, true, false⟩, ⟨2, true, false⟩] removedVariants
        (fun w => w.viewMulti removedVariants 2 removedVariants[0]) ([2, 65, 1, 0, 0, 0, 9] ++ t) =
          .err .deserialize := by
  have hi := C59_current .default [⟨1, true, false⟩, ⟨2, true, false⟩] ⟨by decide, by decide, by decide⟩
    removedVariants demo_variantEndsConverted.2.2 (removed_accepted true true _ (.tail _ (.head _)))
    ([2, 65, 1, 0, 0, 0, 9] ++ t) ([65, 1, 0, 0, 0, 9] ++ t) rfl
  exact ⟨(C89_unit _ _ _ _ hi ⟨"B", [DV.u32 9]⟩ t rfl removedVariants[0] (.head _)).2 (by decide),
    (C89_other _ _ _ _ hi ⟨"B", [DV.u32 9]⟩ t rfl removedVariants[0] (.head _) (by decide)
      (u32Field .default "field_0" {}) (readU32 .default)).2.2⟩

/-- A `B(9)` through each kind of walker: view, walk, and an unknown tag. -/
example :
    let view (h : List Entry) : Rd Bytes :=
      walkThen .default h removedVariants fun w =>
        w.viewSingle removedVariants 2 removedVariants[2] (u32Field .default "field_0" {})
    let into (h : List Entry) : Rd Nat :=
      walkThen .default h removedVariants fun w => w.intoVariant removedVariants 2 removedVariants[2] (readU32 .default)
    view [⟨1, true, false⟩, ⟨2, false, false⟩] [2, 1, 9, 99] = .ok ([9], [99]) ∧
    into [⟨1, true, false⟩, ⟨2, false, false⟩] [2, 1, 9, 99] = .ok (9, [99]) ∧
    view [⟨1, true, false⟩, ⟨2, true, false⟩] [2, 65, 1, 0, 0, 0, 9, 99] = .ok ([9], [99]) ∧
    into [⟨1, true, false⟩, ⟨2, true, false⟩] [2, 65, 1, 0, 0, 0, 9, 99] = .err .conversion ∧
    view [⟨1, true, false⟩, ⟨2, false, false⟩] [1, 65, 1, 0, 0, 0, 9, 99] = .ok ([9], [99]) ∧
    into [⟨1, true, false⟩, ⟨2, false, false⟩] [1, 65, 1, 0, 0, 0, 9, 99] = .err .conversion ∧
    view [⟨1, true, false⟩, ⟨2, true, false⟩] [2, 66, 1, 0, 0, 0, 9, 99] = .err .deserialize ∧
    view [⟨1, true, false⟩, ⟨2, false, false⟩] [2, 0, 99] = .err .deserialize :=
  ⟨rfl, rfl, rfl, rfl, rfl, rfl, rfl, rfl⟩

/-- The unit variant `A`, and another one. -/
example :
    let unit (h : List Entry) : Rd Unit :=
      walkThen .default h removedVariants fun w => w.intoUnit removedVariants 2 removedVariants[0]
    unit [⟨1, true, false⟩, ⟨2, false, false⟩] [2, 0, 99] = .ok ((), [99]) ∧
    unit [⟨1, true, false⟩, ⟨2, true, false⟩] [2, 0, 99] = .ok ((), [99]) ∧
    unit [⟨1, true, false⟩, ⟨2, true, false⟩] [2, 65, 0, 0, 0, 0, 99] = .err .deserialize := ⟨rfl, rfl, rfl⟩

/-- The bytes after the header in the examples are tagged payloads. -/
example : Wire.Tagged 1 .varlen [9] [65, 1, 0, 0, 0, 9] ∧ Wire.Tagged 0 .inline [] [0] :=
  ⟨⟨65, _, rfl, .varlen (by decide), rfl⟩, ⟨0, _, rfl, .inline, rfl⟩⟩

end Revision
