import Verif.Proofs.DeriveEnum
import Verif.Proofs.DeriveTy
import Verif.Spec.DeriveDemo
import Verif.Props.Types

/-! # C53–C56: derived enums -/

namespace Revision

variable {V : Type}

/-- The demonstration enum is accepted at each of its revisions. -/
theorem demoEnum_accepted : ∀ e ∈ demoEnumHistory, AcceptedEnum e (demoVariants .default) := by
  intro e he
  simp only [demoEnumHistory, List.mem_cons, List.not_mem_nil, or_false] at he
  have hlt : ∀ (D : Discs), (∀ p ∈ D, p.2 < 2 ^ 32) → ∀ n d, D.lookup n = some d → d < 2 ^ 32 :=
    fun D h n d hl => h _ (mem_of_lookup_eq_some _ _ _ hl)
  rcases he with rfl | rfl | rfl
  · refine ⟨?_, ⟨[("C", 2), ("B", 1), ("A", 0)], rfl, hlt _ (by decide)⟩, fun h => by cases h⟩
    unfold DistinctVariants; decide
  · refine ⟨?_, ⟨[("C", 3), ("B", 2), ("X", 1), ("A", 0)], rfl, hlt _ (by decide)⟩, fun h => by cases h⟩
    unfold DistinctVariants; decide
  · refine ⟨?_, ⟨[("B", 2), ("X", 1), ("A", 0)], rfl, hlt _ (by decide)⟩, fun _ => rfl⟩
    unfold DistinctVariants; decide

theorem demoEnum_history : ValidHistory demoEnumHistory := ⟨by decide, by decide, by decide⟩

/-- The fields of its variants are declared with types. -/
theorem demoVariants_typed : ∀ v ∈ demoVariants .default, ∀ f ∈ v.fields, ∃ name opts t d c,
    f = tyField .default demoEnv name opts t d c := by
  intro v hv f hf
  simp only [demoVariants, List.mem_cons, List.not_mem_nil, or_false] at hv
  rcases hv with rfl | rfl | rfl | rfl <;>
    (simp only [List.mem_cons, List.not_mem_nil, or_false] at hf
     try (rcases hf with rfl | rfl | rfl <;> exact ⟨_, _, _, _, _, rfl⟩)
     try (subst hf; exact ⟨_, _, _, _, _, rfl⟩))

theorem demoVariants_faithful : ∀ v ∈ demoVariants .default, ∀ f ∈ v.fields, ∀ e, (f.variantWire e).Faithful := by
  intro v hv f hf e
  obtain ⟨name, opts, ty, d, c, rfl⟩ := demoVariants_typed v hv f hf
  exact tyField_variantWire_faithful .default demoEnv_lawful (fun i => nomatch i) name opts ty d c e

theorem demoVariants_distinct : ∀ v ∈ demoVariants .default, DistinctNames v.fields 1 3 ∧
    DistinctNames v.fields 2 3 ∧ DistinctNames v.fields 3 3 := by
  intro v hv
  simp only [demoVariants, List.mem_cons, List.not_mem_nil, or_false] at hv
  rcases hv with rfl | rfl | rfl | rfl <;> refine ⟨?_, ?_, ?_⟩ <;>
    simp [DistinctNames, u32Field, tyField, FieldDecl.existsAt, existsAt]

/-! ## C53 Enum round trip -/

/-- Serialising a value of a live variant succeeds iff each of its live fields can be serialised and
a varlen payload is shorter than 2^32 bytes.  What is written is the current revision, then the
discriminant and the fields (legacy) or the tag and the sized payload (optimised). -/
theorem C53_layout (cfg : Cfg) (h : List Entry) (hh : ValidHistory h) (vs : List (VariantDecl V))
    (hA : AcceptedEnum (lastEntry h) vs) (v : VariantDecl V) (hv : v ∈ vs) (ha : v.existsAt h.length = true)
    (xs : List V) (hl : xs.length = (aliveFields v.fields h.length).length) (out : Bytes) :
    (enumC cfg h vs).enc ⟨v.ident, xs⟩ = .ok out ↔
      ∃ d bs, VariantDecl.discAt vs h.length v d ∧
        Encodes (fun f => f.variantWire (lastEntry h)) (aliveFields v.fields h.length) xs bs ∧
        ((lastEntry h).optimised = true → v.opts.size.getD .inline = .varlen → bs.flatten.length < 2 ^ 32) ∧
        out = encU16 cfg h.length ++ enumLayout cfg (lastEntry h) d (v.opts.size.getD .inline) bs := by
  have hrev := hh.lastEntry_revision
  unfold enumC
  simp only [hh.latest_eq]
  rw [← hrev] at ha hl ⊢
  obtain ⟨d, hd⟩ := hA.arm_total hv ha
  have hdisc : ∀ d', VariantDecl.discAt vs (lastEntry h).revision v d' ↔ d' = d := by
    intro d'
    constructor
    · rintro ⟨D, hD, hl⟩
      rw [hA.discsAt] at hD
      cases hD
      have := (mem_variantArms.1 hd).2.2
      rw [hl] at this
      exact Option.some.inj this
    · rintro rfl
      exact ⟨_, hA.discsAt, (mem_variantArms.1 hd).2.2⟩
  have key := fun out => serializeEnumBody_ok cfg (lastEntry h) vs hA d v hd xs hl out
  constructor
  · intro he
    obtain ⟨b, hb, ho⟩ := Res.bind_eq_ok.1 he
    cases ho
    obtain ⟨bs, h1, h2, h3⟩ := (key b).1 hb
    exact ⟨d, bs, (hdisc d).2 rfl, h1, h2, by rw [h3]⟩
  · rintro ⟨d', bs, h1, h2, h3, rfl⟩
    rw [(hdisc d').1 h1]
    rw [(key _).2 ⟨bs, h2, h3, rfl⟩]
    rfl

example : (enumC .default demoEnumHistory (demoVariants .default)).enc ⟨"B", [DV.u32 7, DV.u32 300]⟩ =
    .ok ([3] ++ enumLayout .default ⟨3, true, false⟩ 2 .varlen [[7], [251, 44, 1]]) :=
  (C53_layout .default demoEnumHistory demoEnum_history (demoVariants .default)
    (demoEnum_accepted _ (.tail _ (.tail _ (.head _)))) (demoVariants .default)[2] (.tail _ (.tail _ (.head _))) rfl
    [DV.u32 7, DV.u32 300] rfl _).2
    ⟨2, _, ⟨_, rfl, rfl⟩, .cons rfl (.cons rfl .nil), fun _ _ => by decide, rfl⟩

example : (enumC .default demoEnumHistory (demoVariants .default)).enc ⟨"B", [DV.u32 7, DV.u32 300]⟩ =
    .ok ([3] ++ [64 + 2] ++ [4, 0, 0, 0] ++ [7] ++ [251, 44, 1]) := by rfl

/-- A value serialised at the current revision is read back, whatever follows it.

Missing from the full property: values of a variant with declared size `fixed(n)` whose fields do not
serialise to `n` bytes; they are not `valid` here, but nothing in a release build refuses them
(`C53_fixed_size_false`). -/
theorem C53_round_trip_partial (cfg : Cfg) (h : List Entry) (hh : ValidHistory h) (vs : List (VariantDecl V))
    (hA : AcceptedEnum (lastEntry h) vs)
    (hf : ∀ v ∈ vs, v.existsAt h.length = true → ∀ f ∈ v.fields, f.existsAt h.length = true →
      (f.variantWire (lastEntry h)).Faithful)
    (hn : ∀ v ∈ vs, v.existsAt h.length = true → DistinctNames v.fields h.length h.length)
    (x : EnumVal V) (b t : Bytes) (hv : (enumC cfg h vs).valid x) (hb : (enumC cfg h vs).enc x = .ok b) :
    (enumC cfg h vs).dec (b ++ t) = .ok (x, t) := by
  have hrev := hh.lastEntry_revision
  unfold enumC at hv hb ⊢
  simp only [hh.latest_eq] at hv hb ⊢
  obtain ⟨body, hbody, hb'⟩ := Res.bind_eq_ok.1 hb
  cases hb'
  clear hb
  rw [List.append_assoc, ← hrev, dispatch_hit cfg hh hh.lastEntry_mem]
  rw [← hrev] at hf hn
  obtain ⟨d, v, hm, hi, hvf, hz⟩ := hv
  rcases x with ⟨n, xs⟩
  simp only at hi hvf
  subst hi
  have hm' := mem_variantArms.1 hm
  rw [validFields_iff] at hvf
  rw [deserializeEnumBody_run cfg (lastEntry h) _ vs hA d v hm xs body t (hf v hm'.1 hm'.2.1)
    (fun _ => hn v hm'.1 hm'.2.1) (fun _ _ _ => rfl) hvf
    (fun ho bs hbs => ValidEnum.sizeFits (vs := vs) (x := ⟨v.ident, xs⟩) ho (hz ho) bs hbs) hbody]
  unfold migrateVariant
  rw [migrate_same _ _ hvf]
  simp only [Res.ok_bind]
  rw [if_pos hm'.2.1]
  rfl

theorem demoEnum_valid :
    (enumC .default demoEnumHistory (demoVariants .default)).valid ⟨"B", [DV.u32 7, DV.u32 300]⟩ :=
  ⟨2, (demoVariants .default)[2], by rw [mem_variantArms]; exact ⟨.tail _ (.tail _ (.head _)), rfl, rfl⟩, rfl,
    ⟨⟨_, rfl, trivial⟩, ⟨_, rfl, trivial⟩, rfl⟩, fun _ => trivial⟩

example (t : Bytes) :
    (enumC .default demoEnumHistory (demoVariants .default)).dec ([3, 66, 4, 0, 0, 0, 7, 251, 44, 1] ++ t) =
      .ok (⟨"B", [DV.u32 7, DV.u32 300]⟩, t) :=
  C53_round_trip_partial .default demoEnumHistory demoEnum_history (demoVariants .default)
    (demoEnum_accepted _ (.tail _ (.tail _ (.head _)))) (fun v hv _ f hf _ => demoVariants_faithful v hv f hf _)
    (fun v hv _ => (demoVariants_distinct v hv).2.2) _ _ t demoEnum_valid rfl

/-- ```
#[revisioned(revision(1, optimised))]
enum E { #[revision(size = "fixed(1)")] A(u32) }
``` -/
def fixedSizeVariants (cfg : Cfg) : List (VariantDecl DV) :=
  [⟨"A", { size := some (.fixed 1) }, [u32Field cfg "field_0" {}], fun _ _ => .panic⟩]

/-- A release build writes a variant whose payload is not of the declared size, and then cannot read
it back. -/
theorem C53_fixed_size_false :
    ∃ (h : List Entry) (vs : List (VariantDecl DV)) (x : EnumVal DV) (b : Bytes),
      ValidHistory h ∧ AcceptedEnum (lastEntry h) vs ∧
      (∀ v ∈ vs, ∀ f ∈ v.fields, (f.variantWire (lastEntry h)).Faithful) ∧
      (enumC .default h vs).enc x = .ok b ∧ (enumC .default h vs).dec b = .err .io := by
  refine ⟨[⟨1, true, false⟩], fixedSizeVariants .default, ⟨"A", [DV.u32 300]⟩, [1, 32, 251, 44, 1],
    ⟨by decide, by decide, by decide⟩, ⟨?_, ⟨[("A", 0)], rfl, ?_⟩, fun _ => rfl⟩, ?_, rfl, rfl⟩
  · unfold DistinctVariants; decide
  · intro n d hl
    have := mem_of_lookup_eq_some _ _ _ hl
    simp at this
    omega
  · intro v hv f hf
    simp only [fixedSizeVariants, List.mem_cons, List.not_mem_nil, or_false] at hv
    subst hv
    simp only [List.mem_cons, List.not_mem_nil, or_false] at hf
    subst hf
    exact tyField_variantWire_faithful .default demoEnv_lawful (fun i => nomatch i) _ _ _ _ _ ⟨1, true, false⟩

/-- Whatever the bytes, a discriminant that no live variant of the wire revision has, or a tag whose id
and size class are not those of a live variant, is refused by decoding. -/
theorem C53_unknown_variant (cfg : Cfg) (h : List Entry) (hh : ValidHistory h) (vs : List (VariantDecl V))
    (e : Entry) (he : e ∈ h) (hA : AcceptedEnum e vs) (s t : Bytes) (hs : readU16 cfg s = .ok (e.revision, t)) :
    (e.optimised = false → ∀ d r, readU32 cfg t = .ok (d, r) →
      (∀ v ∈ vs, v.existsAt e.revision = true → ¬ VariantDecl.discAt vs e.revision v d) →
      (enumC cfg h vs).dec s = .err .deserialize) ∧
    (e.optimised = true → ∀ tag sc r, readOptimisedTag t = .ok ((tag, sc), r) →
      (∀ v ∈ vs, v.existsAt e.revision = true → VariantDecl.discAt vs e.revision v tag.variantId.toNat →
        (v.opts.size.getD .inline).cls ≠ sc) →
      (enumC cfg h vs).dec s = .err .deserialize) := by
  have hd : (enumC cfg h vs).dec s = deserializeEnumBody cfg e (latest h) vs t := by
    show dispatchRevision cfg h _ s = _
    unfold dispatchRevision
    rw [Rd.bind_of_ok hs]
    simp only [hh.find he]
  rw [hd]
  unfold deserializeEnumBody
  constructor
  · intro ho d r hr hno
    simp only [ho, Bool.false_eq_true, if_false]
    rw [Rd.bind_of_ok hr]
    cases hf : (variantArms vs e.revision).find? (fun a => a.1 == d) with
    | none => rfl
    | some a =>
      rcases a with ⟨d', v⟩
      have hm := mem_variantArms.1 (List.mem_of_find?_eq_some hf)
      have hp := List.find?_some hf
      simp only [beq_iff_eq] at hp
      subst hp
      exact absurd ⟨_, hA.discsAt, hm.2.2⟩ (hno v hm.1 hm.2.1)
  · intro ho tag sc r hr hno
    simp only [ho, if_true]
    rw [Rd.bind_of_ok hr]
    simp only
    split
    · rename_i arm harm
      rcases arm with ⟨d', v⟩
      have hmem := List.mem_of_find?_eq_some harm
      have hm := mem_variantArms.1 hmem
      have hp := List.find?_some harm
      simp only [Bool.and_eq_true, beq_iff_eq] at hp
      have hlt := hA.disc_lt_32 ho hmem
      have hd' : d' = tag.variantId.toNat := by
        rw [← hp.1, UInt8.toNat_ofNat', Nat.mod_eq_of_lt (by simp only at hlt; omega)]
      subst hd'
      exact absurd hp.2 (hno v hm.1 hm.2.1 ⟨_, hA.discsAt, hm.2.2⟩)
    · rfl

/-- Discriminant 3 is `C` in revision 2 and none in revision 1. -/
example (t : Bytes) : (enumC .default demoEnumHistory (demoVariants .default)).dec (1 :: 3 :: t) = .err .deserialize := by
  refine (C53_unknown_variant .default demoEnumHistory demoEnum_history (demoVariants .default) ⟨1, false, false⟩
    (.head _) (demoEnum_accepted _ (.head _)) _ (3 :: t) rfl).1 rfl 3 t rfl ?_
  rintro v - - ⟨D, hD, hl⟩
  cases hD
  have : (v.ident, 3) ∈ [("C", 2), ("B", 1), ("A", 0)] := mem_of_lookup_eq_some _ _ _ hl
  simp at this

example : (enumC .default demoEnumHistory (demoVariants .default)).dec [1, 3, 0] = .err .deserialize ∧
    (enumC .default demoEnumHistory (demoVariants .default)).dec [3, 64, 0, 0, 0, 0] = .err .deserialize :=
  ⟨rfl, rfl⟩

/-! ## C54 Older enum data migrates as declared -/

/-- Data written by the program as it stood at revision `k`, followed by anything, is read by the
current program as `migrateEnum` says: the fields of the variant migrate as those of a struct, and a
variant that has been removed is handed with them to its convert function.

Missing from the full property: fields added to or removed from a variant since an optimised
revision (`C54_optimised_fields_false`), name shadowing as for structs (`C50_shadowing_false`), and
the `fixed(n)` values excluded from `C53`. -/
theorem C54_migrates_partial (cfg : Cfg) (h : List Entry) (hh : ValidHistory h) (vs : List (VariantDecl V))
    (k : Nat) (h1 : 1 ≤ k) (h2 : k ≤ h.length) (hA : AcceptedEnum (lastEntry (h.take k)) vs)
    (hf : ∀ v ∈ vs, v.existsAt k = true → ∀ f ∈ v.fields, f.existsAt k = true →
      (f.variantWire (lastEntry (h.take k))).Faithful)
    (hn : ∀ v ∈ vs, v.existsAt k = true → (lastEntry (h.take k)).optimised = false →
      DistinctNames v.fields k h.length)
    (hx : ∀ v ∈ vs, v.existsAt k = true → (lastEntry (h.take k)).optimised = true →
      ∀ f ∈ v.fields, f.existsAt h.length = f.existsAt k)
    (x : EnumVal V) (b t : Bytes)
    (hv : (enumC cfg (h.take k) (variantsAsOf k vs)).valid x)
    (hb : (enumC cfg (h.take k) (variantsAsOf k vs)).enc x = .ok b) :
    (enumC cfg h vs).dec (b ++ t) = (migrateEnum k h.length vs x).andRest t := by
  have hmem : lastEntry (h.take k) ∈ h := List.mem_of_getElem? (hh.lastEntry_take h1 h2)
  have hrev : (lastEntry (h.take k)).revision = k := by
    have := hh.revision_get (hh.lastEntry_take h1 h2)
    omega
  have hkt := (hh.take h1 h2).latest_eq
  rw [List.length_take, Nat.min_eq_left h2] at hkt
  have hk64 : k < 2 ^ 64 - 1 := by have := hh.fits; omega
  unfold enumC at hv hb ⊢
  simp only [hkt, hh.latest_eq] at hv hb ⊢
  generalize lastEntry (h.take k) = e at *
  subst hrev
  obtain ⟨body, hbody, hb'⟩ := Res.bind_eq_ok.1 hb
  cases hb'
  clear hb
  rw [serializeEnumBody_asOf cfg e hk64] at hbody
  rw [validEnum_asOf e hk64] at hv
  rw [List.append_assoc, dispatch_hit cfg hh hmem]
  obtain ⟨d, v, hm, hi, hvf, hz⟩ := hv
  rcases x with ⟨n, xs⟩
  simp only at hi hvf
  subst hi
  have hm' := mem_variantArms.1 hm
  rw [validFields_iff] at hvf
  unfold migrateEnum
  simp only [aliveVariants_find hA hm'.1 hm'.2.1]
  exact deserializeEnumBody_run cfg e h.length vs hA d v hm xs body t (hf v hm'.1 hm'.2.1)
    (hn v hm'.1 hm'.2.1) (hx v hm'.1 hm'.2.1) hvf
    (fun ho bs hbs => ValidEnum.sizeFits (vs := vs) (x := ⟨v.ident, xs⟩) ho (hz ho) bs hbs) hbody

/-- The same for fields of any supported types. -/
theorem C54_migrates_types_partial {ι : Type} [DecidableEq ι] {E : Env ι} (cfg : Cfg) (hE : E.Lawful)
    (hc : ∀ i, (E.extC i).CheckLaw) (h : List Entry) (hh : ValidHistory h) (vs : List (VariantDecl (Dyn E)))
    (hty : ∀ v ∈ vs, ∀ f ∈ v.fields, ∃ name opts t d c, f = tyField cfg E name opts t d c)
    (k : Nat) (h1 : 1 ≤ k) (h2 : k ≤ h.length) (hA : AcceptedEnum (lastEntry (h.take k)) vs)
    (hn : ∀ v ∈ vs, v.existsAt k = true → (lastEntry (h.take k)).optimised = false →
      DistinctNames v.fields k h.length)
    (hx : ∀ v ∈ vs, v.existsAt k = true → (lastEntry (h.take k)).optimised = true →
      ∀ f ∈ v.fields, f.existsAt h.length = f.existsAt k)
    (x : EnumVal (Dyn E)) (b t : Bytes)
    (hv : (enumC cfg (h.take k) (variantsAsOf k vs)).valid x)
    (hb : (enumC cfg (h.take k) (variantsAsOf k vs)).enc x = .ok b) :
    (enumC cfg h vs).dec (b ++ t) = (migrateEnum k h.length vs x).andRest t := by
  refine C54_migrates_partial cfg h hh vs k h1 h2 hA ?_ hn hx x b t hv hb
  intro v hv _ f hf _
  obtain ⟨name, opts, ty, d, c, rfl⟩ := hty v hv f hf
  exact tyField_variantWire_faithful cfg hE hc name opts ty d c _

/-- The theorem applied to a removed variant, and to a kept one with fields removed and added. -/
example (t : Bytes) :
    (enumC .default demoEnumHistory (demoVariants .default)).dec ([1, 2, 5] ++ t) = .ok (⟨"X", [DV.u32 5]⟩, t) :=
  C54_migrates_types_partial .default demoEnv_lawful (fun i => nomatch i) demoEnumHistory demoEnum_history
    (demoVariants .default) demoVariants_typed 1 (by decide) (by decide) (demoEnum_accepted _ (.head _))
    (fun v hv _ _ => (demoVariants_distinct v hv).1) (fun _ _ _ ho => by cases ho) ⟨"C", [DV.u32 5]⟩ [1, 2, 5] t
    ⟨2, (variantsAsOf 1 (demoVariants .default))[2]'(by decide),
      by rw [mem_variantArms]; exact ⟨.tail _ (.tail _ (.head _)), rfl, rfl⟩, rfl,
      ⟨⟨_, rfl, trivial⟩, rfl⟩, fun ho => by cases ho⟩ rfl

example (t : Bytes) :
    (enumC .default demoEnumHistory (demoVariants .default)).dec ([1, 1, 7, 251, 44, 1] ++ t) =
      .ok (⟨"B", [DV.u32 301, DV.u32 1]⟩, t) :=
  C54_migrates_partial .default demoEnumHistory demoEnum_history
    (demoVariants .default) 1 (by decide) (by decide) (demoEnum_accepted _ (.head _))
    (fun v hv _ f hf _ => demoVariants_faithful v hv f hf _)
    (fun v hv _ _ => (demoVariants_distinct v hv).1) (fun _ _ _ ho => by cases ho)
    ⟨"B", [DV.u32 7, DV.u32 300]⟩ [1, 1, 7, 251, 44, 1] t
    ⟨1, (variantsAsOf 1 (demoVariants .default))[1]'(by decide),
      by rw [mem_variantArms]; exact ⟨.tail _ (.head _), rfl, rfl⟩, rfl,
      ⟨⟨_, rfl, trivial⟩, ⟨_, rfl, trivial⟩, rfl⟩, fun ho => by cases ho⟩ rfl

/-- Revision-1 records of `B { n: 7, gone: 300 }` and `C(5)`, read at revision 3. -/
example :
    (enumC .default (demoEnumHistory.take 1) (variantsAsOf 1 (demoVariants .default))).enc
        ⟨"B", [DV.u32 7, DV.u32 300]⟩ = .ok [1, 1, 7, 251, 44, 1] ∧
      migrateEnum 1 3 (demoVariants .default) ⟨"B", [DV.u32 7, DV.u32 300]⟩ =
        .ok ⟨"B", [DV.u32 301, DV.u32 1]⟩ ∧
      (enumC .default demoEnumHistory (demoVariants .default)).dec [1, 1, 7, 251, 44, 1, 99] =
        .ok (⟨"B", [DV.u32 301, DV.u32 1]⟩, [99]) ∧
      migrateEnum 1 3 (demoVariants .default) ⟨"C", [DV.u32 5]⟩ = .ok ⟨"X", [DV.u32 5]⟩ ∧
      (enumC .default demoEnumHistory (demoVariants .default)).dec [1, 2, 5] = .ok (⟨"X", [DV.u32 5]⟩, []) :=
  ⟨rfl, rfl, rfl, rfl, rfl⟩

/-- ```
#[revisioned(revision(1, optimised), revision(2, optimised))]
enum E {
    #[revision(size = "varlen")]
    A(#[revision(end = 2, convert_fn = "…")] u32,      // stores the number + revision in the new field
      #[revision(start = 2, default_fn = "…")] u32),
}
``` -/
def positionalVariants (cfg : Cfg) : List (VariantDecl DV) :=
  [⟨"A", { size := some .varlen },
    [u32Field cfg "field_0" { stop := some 2, convert := some "…" },
     u32Field cfg "field_1" { start := some 2, default := some "…" }], fun _ _ => .panic⟩]

/-- In an optimised enum the fields of the old revision are taken as those of the current one:
neither the default nor the convert function is called. -/
theorem C54_optimised_fields_false :
    ∃ (h : List Entry) (vs : List (VariantDecl DV)) (x : EnumVal DV) (b : Bytes),
      ValidHistory h ∧ (∀ e ∈ h, AcceptedEnum e vs) ∧
      (∀ e ∈ h, ∀ v ∈ vs, ∀ f ∈ v.fields, (f.variantWire e).Faithful) ∧
      (∀ v ∈ vs, DistinctNames v.fields 1 2) ∧
      (enumC .default (h.take 1) (variantsAsOf 1 vs)).valid x ∧
      (enumC .default (h.take 1) (variantsAsOf 1 vs)).enc x = .ok b ∧
      migrateEnum 1 2 vs x = .ok ⟨"A", [DV.u32 42]⟩ ∧
      (enumC .default h vs).dec b = .ok (⟨"A", [DV.u32 41]⟩, []) := by
  refine ⟨[⟨1, true, false⟩, ⟨2, true, false⟩], positionalVariants .default, ⟨"A", [DV.u32 41]⟩,
    [1, 64, 1, 0, 0, 0, 41], ⟨by decide, by decide, by decide⟩, ?_, ?_, ?_, ?_, rfl, rfl, rfl⟩
  · intro e he
    have hlt : ∀ n d, ([("A", 0)] : Discs).lookup n = some d → d < 2 ^ 32 := by
      intro n d hl
      have := mem_of_lookup_eq_some _ _ _ hl
      simp at this
      omega
    simp only [List.mem_cons, List.not_mem_nil, or_false] at he
    rcases he with rfl | rfl
    · refine ⟨?_, ⟨[("A", 0)], rfl, hlt⟩, fun _ => rfl⟩
      unfold DistinctVariants; decide
    · refine ⟨?_, ⟨[("A", 0)], rfl, hlt⟩, fun _ => rfl⟩
      unfold DistinctVariants; decide
  · intro e _ v hv f hf
    simp only [positionalVariants, List.mem_cons, List.not_mem_nil, or_false] at hv
    subst hv
    simp only [List.mem_cons, List.not_mem_nil, or_false] at hf
    rcases hf with rfl | rfl <;>
      exact tyField_variantWire_faithful .default demoEnv_lawful (fun i => nomatch i) _ _ _ _ _ e
  · intro v hv
    simp only [positionalVariants, List.mem_cons, List.not_mem_nil, or_false] at hv
    subst hv
    simp [DistinctNames, u32Field, tyField, FieldDecl.existsAt, existsAt]
  · exact ⟨0, (variantsAsOf 1 (positionalVariants .default))[0]'(by decide),
      by rw [mem_variantArms]; exact ⟨.head _, rfl, rfl⟩, rfl, ⟨⟨_, rfl, trivial⟩, rfl⟩, fun _ => trivial⟩

/-! ## C55 Skipping a derived enum -/

/-- Whatever the bytes and whichever revision they are of, if the value decodes then both skips
succeed and stop where decoding stops.

Missing from the full property: as for structs, `specialised` fields without the
`specialised-vectors` feature. -/
theorem C55_skip_enum_partial (cfg : Cfg) (h : List Entry) (vs : List (VariantDecl V))
    (hA : ∀ e ∈ h, e.optimised = true → AcceptedEnum e vs)
    (hf : ∀ e ∈ h, e.optimised = false → ∀ v ∈ vs, v.existsAt e.revision = true → ∀ f ∈ v.fields,
      f.existsAt e.revision = true → f.legacyC.dec.Agree f.legacySkip ∧ f.legacyC.dec.Agree f.legacySkipS) :
    (enumC cfg h vs).dec.Agree (enumC cfg h vs).skip ∧
      (enumC cfg h vs).dec.Agree (enumC cfg h vs).skipS ∧
      (enumC cfg h vs).dec.SameAccept (enumC cfg h vs).check := by
  refine ⟨?_, ?_, ?_⟩
  · refine dispatch_agree cfg h fun e he => ?_
    exact deserializeEnumBody_agree cfg e (latest h) vs (hA e he) (fun n => Rd.Agree.readExact_advance n)
      (fun ho v hv hva f hfm ha => (hf e he ho v hv hva f hfm ha).1)
  · refine dispatch_agree cfg h fun e he => ?_
    exact deserializeEnumBody_agree cfg e (latest h) vs (hA e he) (fun n => Rd.Agree.readExact_consume n)
      (fun ho v hv hva f hfm ha => (hf e he ho v hv hva f hfm ha).2)
  · exact .discard _

/-- The same for fields of any supported types. -/
theorem C55_skip_enum_types_partial {ι : Type} [DecidableEq ι] {E : Env ι} (cfg : Cfg) (hE : E.Lawful)
    (h : List Entry) (vs : List (VariantDecl (Dyn E)))
    (hA : ∀ e ∈ h, e.optimised = true → AcceptedEnum e vs)
    (hty : ∀ v ∈ vs, ∀ f ∈ v.fields, ∃ name opts t d c, f = tyField cfg E name opts t d c)
    (hs : cfg.specialised = true ∨ ∀ v ∈ vs, ∀ f ∈ v.fields, f.opts.specialised = false) :
    (enumC cfg h vs).dec.Agree (enumC cfg h vs).skip ∧
      (enumC cfg h vs).dec.Agree (enumC cfg h vs).skipS ∧
      (enumC cfg h vs).dec.SameAccept (enumC cfg h vs).check := by
  refine C55_skip_enum_partial cfg h vs hA ?_
  intro e _ _ v hv _ f hf _
  have hs : cfg.specialised = true ∨ f.opts.specialised = false := hs.imp_right fun hs => hs v hv f hf
  obtain ⟨name, opts, ty, d, c, rfl⟩ := hty v hv f hf
  exact tyField_legacySkip cfg hE name opts ty d c hs

example : (enumC .default demoEnumHistory (demoVariants .default)).dec.Agree
    (enumC .default demoEnumHistory (demoVariants .default)).skip :=
  (C55_skip_enum_types_partial .default demoEnv_lawful demoEnumHistory (demoVariants .default)
    (fun e he _ => demoEnum_accepted e he) demoVariants_typed (.inl rfl)).1

example :
    (enumC .default demoEnumHistory (demoVariants .default)).skip [1, 1, 7, 251, 44, 1, 99] = .ok ((), [99]) ∧
      (enumC .default demoEnumHistory (demoVariants .default)).skip [3, 66, 4, 0, 0, 0, 7, 251, 44, 1, 99] =
        .ok ((), [99]) := ⟨rfl, rfl⟩

/-! ## C56 Unknown variants do not desynchronise a skip -/

/-- The bytes after the tag that belong to the value of a variant, and what follows them. -/
inductive Payload : VariantSize → Bytes → Bytes → Prop
  | inline (t : Bytes) : Payload .inline t t
  | fixed (n : Nat) (p t : Bytes) : p.length = n → Payload (.fixed n) (p ++ t) t
  | varlen (p t : Bytes) : p.length < 2 ^ 32 → Payload .varlen (leBytes 4 p.length ++ p ++ t) t

/-- Skipping an optimised value whose tag is that of a live variant either fails or leaves the reader
after the value's payload, whatever the payload holds; it fails only if the payload is cut short.
A reserved size class is refused.  In a legacy revision an unknown discriminant is refused.

Missing from the full property: a tag with an id no variant has, or with another size class than its
variant's, which decoding rejects and skipping accepts (`C56_unknown_tag_false`). -/
theorem C56_skip_known_partial (cfg : Cfg) (h : List Entry) (hh : ValidHistory h) (vs : List (VariantDecl V))
    (e : Entry) (he : e ∈ h) (hA : AcceptedEnum e vs) (s t : Bytes) (hs : readU16 cfg s = .ok (e.revision, t)) :
    (e.optimised = true → ∀ (v : VariantDecl V) (d : Nat) (r : Bytes), v ∈ vs → v.existsAt e.revision = true →
      VariantDecl.discAt vs e.revision v d →
      t = Tag.new (UInt8.ofNat d) (v.opts.size.getD .inline).cls :: r → ∀ x,
      (enumC cfg h vs).skip s = .ok x ↔ Payload (v.opts.size.getD .inline) r x.2) ∧
    (e.optimised = true → ∀ (tag : Tag) (r : Bytes), t = tag :: r → tag.toNat / 32 % 4 = 3 →
      (enumC cfg h vs).skip s = .err (.invalidTag tag) ∧ (enumC cfg h vs).dec s = .err (.invalidTag tag)) ∧
    (e.optimised = false → ∀ d r, readU32 cfg t = .ok (d, r) →
      (∀ v ∈ vs, v.existsAt e.revision = true → ¬ VariantDecl.discAt vs e.revision v d) →
      (enumC cfg h vs).skip s = .err .deserialize) := by
  have hk : (enumC cfg h vs).skip s = skipEnumBody cfg Rd.advance FieldDecl.legacySkip e (latest h) vs t := by
    show dispatchRevision cfg h _ s = _
    unfold dispatchRevision
    rw [Rd.bind_of_ok hs]
    simp only [hh.find he]
  have hd : (enumC cfg h vs).dec s = deserializeEnumBody cfg e (latest h) vs t := by
    show dispatchRevision cfg h _ s = _
    unfold dispatchRevision
    rw [Rd.bind_of_ok hs]
    simp only [hh.find he]
  rw [hk, hd]
  refine ⟨?_, ?_, ?_⟩
  · rintro ho v d r hv ha ⟨D, hD, hl⟩ rfl ⟨⟨⟩, r'⟩
    rw [hA.discsAt] at hD
    cases hD
    have hm := mem_variantArms.2 ⟨hv, ha, hl⟩
    have hlt := hA.disc_lt_32 ho hm
    rw [skipEnum_known cfg e (latest h) vs hA ho (readOptimisedTag_new hlt _ r) hm
      (tag_variantId_new hlt _).symm rfl]
    simp only
    generalize v.opts.size.getD .inline = size
    cases size with
    | inline =>
      simp only
      constructor
      · intro h; cases h; exact .inline _
      · intro h; cases h; rfl
    | fixed n =>
      simp only
      rw [advance_ok_iff]
      constructor
      · rintro ⟨p, rfl, hp⟩; exact .fixed n p r' hp
      · intro h; cases h with | fixed _ p _ hp => exact ⟨p, rfl, hp⟩
    | varlen =>
      simp only
      constructor
      · intro h
        obtain ⟨len, r1, h1, h2⟩ := Rd.bind_ok.1 h
        obtain ⟨p, rfl, hp⟩ := advance_ok_iff.1 h2
        obtain ⟨hlen, rfl⟩ := readVarlenLen_ok h1
        subst hp
        rw [← List.append_assoc]
        exact .varlen p r' hlen
      · intro h
        cases h with
        | varlen p _ hp =>
          rw [List.append_assoc, Rd.bind_of_ok (readVarlenLen_append _ hp _)]
          exact advance_ok_iff.2 ⟨p, rfl, rfl⟩
  · rintro ho tag r rfl h3
    have hsc := (C30_read tag).2
    rw [if_neg (by omega), if_neg (by omega), if_neg (by omega)] at hsc
    have : readOptimisedTag (tag :: r) = .err (.invalidTag tag) := by
      unfold readOptimisedTag
      rw [Rd.bind_of_ok (Rd.readByte_cons _ r), hsc]
      rfl
    unfold skipEnumBody deserializeEnumBody
    simp only [if_pos ho]
    rw [Rd.bind_of_err this, Rd.bind_of_err this]
    exact ⟨rfl, rfl⟩
  · intro ho d r hr hno
    unfold skipEnumBody
    simp only [ho, Bool.false_eq_true, if_false]
    rw [Rd.bind_of_ok hr]
    cases hf : (variantArms vs e.revision).find? (fun a => a.1 == d) with
    | none => rfl
    | some a =>
      rcases a with ⟨d', v⟩
      have hm := mem_variantArms.1 (List.mem_of_find?_eq_some hf)
      have hp := List.find?_some hf
      simp only [beq_iff_eq] at hp
      subst hp
      exact absurd ⟨_, hA.discsAt, hm.2.2⟩ (hno v hm.1 hm.2.1)

/-- A skip of `B` steps over four bytes that are not a valid payload. -/
example (t : Bytes) : (enumC .default demoEnumHistory (demoVariants .default)).skip
    (3 :: 66 :: (leBytes 4 4 ++ [255, 255, 255, 255] ++ t)) = .ok ((), t) :=
  ((C56_skip_known_partial .default demoEnumHistory demoEnum_history (demoVariants .default) ⟨3, true, false⟩
    (.tail _ (.tail _ (.head _))) (demoEnum_accepted _ (.tail _ (.tail _ (.head _)))) _ _ rfl).1 rfl
    (demoVariants .default)[2] 2 _ (.tail _ (.tail _ (.head _))) rfl ⟨_, rfl, rfl⟩ rfl ((), t)).2
    (.varlen [255, 255, 255, 255] t (by decide))

/-- An inline tag with an id no variant has, and a varlen value with the tag of a fixed one: decoding
rejects both, skipping accepts them, and in the second case stops in the middle. -/
theorem C56_unknown_tag_false :
    ∃ (h : List Entry) (vs : List (VariantDecl DV)), ValidHistory h ∧ (∀ e ∈ h, AcceptedEnum e vs) ∧
      (enumC .default h vs).dec [3, 9, 99] = .err .deserialize ∧
      (enumC .default h vs).skip [3, 9, 99] = .ok ((), [99]) ∧
      (enumC .default h vs).dec [3, 34, 1, 0, 0, 0, 7] = .err .deserialize ∧
      (enumC .default h vs).skip [3, 34, 1, 0, 0, 0, 7] = .ok ((), [1, 0, 0, 0, 7]) :=
  ⟨demoEnumHistory, demoVariants .default, demoEnum_history, demoEnum_accepted, rfl, rfl, rfl, rfl⟩

end Revision
