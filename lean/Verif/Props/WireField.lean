import Verif.Proofs.WireField

/-! # Property C87: the attributes of a field select its bytes -/

namespace Revision

open Wire

section
variable {ι : Type} [DecidableEq ι] (cfg : Cfg) {E : Env ι} (hE : E.Lawful) (hr : ∀ t a, E.eq t a a = true)
include hE hr

/-- C87: the record of a struct is made of the forms its fields' attributes select; it is written
exactly if, in an optimised encoding, the payload stays below 4 GiB. -/
theorem C87_struct (h : List Entry) (hh : ValidHistory h) (fs : List (FieldDecl (Dyn E))) (vs : List (Dyn E))
    (ht : Typed cfg E (aliveFields fs h.length) vs) (out : Bytes) :
    (structC cfg h fs).enc vs = .ok out ↔
      ∃ parts, FieldParts cfg E (lastEntry h).optimised true ((aliveFields fs h.length).map (·.opts)) vs parts ∧
        ((lastEntry h).optimised = true →
          (if (lastEntry h).indexedStruct then indexedStruct parts else parts.flatten).length < 2 ^ 32) ∧
        out = structRecord cfg h.length (lastEntry h).optimised (lastEntry h).indexedStruct parts := by
  have hpay : ∀ bs, structPayload (lastEntry h) bs =
      if (lastEntry h).indexedStruct then indexedStruct bs else bs.flatten := by
    intro bs
    simp only [structPayload, offsetTable, indexedStruct, starts, start, leBytes_eq_le]
  have hsmall : ∀ {bs : List Bytes} {b : Bytes}, b ∈ bs →
      (structPayload (lastEntry h) bs).length < 2 ^ 32 → b.length < 2 ^ 32 := by
    intro bs b hb hs
    have := mem_flatten_length hb
    unfold structPayload at hs
    split at hs
    · rw [List.length_append] at hs; omega
    · omega
  have key : ∀ {bs : List Bytes}, ((lastEntry h).optimised = true →
      (structPayload (lastEntry h) bs).length < 2 ^ 32) →
      (Encodes (fun f => f.wire (lastEntry h)) (aliveFields fs h.length) vs bs ↔
        FieldParts cfg E (lastEntry h).optimised true ((aliveFields fs h.length).map (·.opts)) vs bs) := by
    intro bs hs
    exact encodes_iff ht fun name opts t dflt convert a b hb hw hf =>
      fieldWire_iff cfg hE hr (lastEntry h) name opts t dflt convert a hw hf fun ho => hsmall hb (hs ho)
  rw [C48_layout cfg h hh fs vs ht.length_eq]
  constructor
  · rintro ⟨bs, he, hs, rfl⟩
    exact ⟨bs, (key hs).1 he, fun ho => by rw [← hpay]; exact hs ho, structRecord_eq cfg h hh bs⟩
  · rintro ⟨bs, hp, hs, rfl⟩
    have hs' : (lastEntry h).optimised = true → (structPayload (lastEntry h) bs).length < 2 ^ 32 :=
      fun ho => by rw [hpay]; exact hs ho
    exact ⟨bs, (key hs').2 hp, hs', (structRecord_eq cfg h hh bs).symm⟩

omit hE hr in
/-- C87: the record of an enum value is made of the forms its fields' attributes select; at an
optimised revision none of them applies. -/
theorem C87_enum (h : List Entry) (hh : ValidHistory h) (vs : List (VariantDecl (Dyn E)))
    (hA : AcceptedEnum (lastEntry h) vs) (v : VariantDecl (Dyn E)) (hv : v ∈ vs)
    (ha : v.existsAt h.length = true) (d : Nat) (hd : VariantDecl.discAt vs h.length v d) (xs : List (Dyn E))
    (ht : Typed cfg E (aliveFields v.fields h.length) xs) (out : Bytes) :
    (enumC cfg h vs).enc ⟨v.ident, xs⟩ = .ok out ↔
      ∃ parts, FieldParts cfg E (lastEntry h).optimised false ((aliveFields v.fields h.length).map (·.opts)) xs parts ∧
        ((lastEntry h).optimised = true → v.opts.size = some .varlen → parts.flatten.length < 2 ^ 32) ∧
        out = enumRecord cfg h.length (lastEntry h).optimised d (v.opts.size.getD .inline) parts := by
  have key : ∀ {bs : List Bytes},
      (Encodes (fun f => f.variantWire (lastEntry h)) (aliveFields v.fields h.length) xs bs ↔
        FieldParts cfg E (lastEntry h).optimised false ((aliveFields v.fields h.length).map (·.opts)) xs bs) :=
    fun {bs} => encodes_iff ht fun name opts t dflt convert a b _ hw hf =>
      fieldVariantWire_iff cfg E (lastEntry h) name opts t dflt convert a hw hf b
  have hrev := hh.lastEntry_revision
  have hsz : v.opts.size.getD .inline = .varlen ↔ v.opts.size = some .varlen := by
    cases v.opts.size <;> simp
  have hrec : ∀ bs, encU16 cfg h.length ++ enumLayout cfg (lastEntry h) d (v.opts.size.getD .inline) bs =
      enumRecord cfg h.length (lastEntry h).optimised d (v.opts.size.getD .inline) bs := by
    have harm : (d, v) ∈ variantArms vs (lastEntry h).revision := by
      obtain ⟨D, hD, hl⟩ := hd
      rw [hrev]
      have := hA.discsAt
      rw [hrev, hD] at this
      cases this
      exact mem_variantArms.2 ⟨hv, ha, hl⟩
    exact enumRecord_eq cfg h hh d (hA.disc_lt harm) (fun ho => hA.disc_lt_32 ho harm) _
  rw [C53_layout cfg h hh vs hA v hv ha xs ht.length_eq]
  constructor
  · rintro ⟨d', bs, hd', he, hs, rfl⟩
    obtain ⟨D, hD, hl⟩ := hd
    obtain ⟨D', hD', hl'⟩ := hd'
    rw [hD] at hD'; cases hD'
    rw [hl] at hl'; cases hl'
    exact ⟨bs, key.1 he, fun h1 h2 => hs h1 (hsz.2 h2), hrec bs⟩
  · rintro ⟨bs, hp, hs, rfl⟩
    exact ⟨d, bs, hd, key.2 hp, fun h1 h2 => hs h1 (hsz.1 h2), (hrec bs).symm⟩

end

/-! ### The hypotheses can be met -/

theorem demoEnv_refl : ∀ t a, demoEnv.eq t a a = true := by
  intro t a
  cases t
  case int k => exact beq_self_eq_true (α := BitVec k.bits) a
  case string => exact beq_self_eq_true (α := String) a
  all_goals rfl

/-- `struct S { #[revision(fixed)] a: i64, #[revision(specialised)] b: Vec<bool>, c: u64, #[revision(indexed_set)] d: HashSet<u16> }`. -/
def demoAttrFields (cfg : Cfg) : List (FieldDecl (Dyn demoEnv)) :=
  [tyField cfg demoEnv "a" { fixed := true } (.int .i64) (fun _ => .ok 0) (fun _ _ l => .ok l),
   tyField cfg demoEnv "b" { specialised := true } (.vec .bool) (fun _ => .ok []) (fun _ _ l => .ok l),
   tyField cfg demoEnv "c" {} (.int .u64) (fun _ => .ok 0) (fun _ _ l => .ok l),
   tyField cfg demoEnv "d" { indexedSet := true } (.hashSet (.int .u16)) (fun _ => .ok []) (fun _ _ l => .ok l)]

/-- `S { a: -2, b: vec![true, false, true], c: 300, d: {9, 7} }`. -/
def demoAttrValue : List (Dyn demoEnv) :=
  [⟨.int .i64, (-2 : BitVec 64)⟩, ⟨.vec .bool, [true, false, true]⟩, ⟨.int .u64, (300 : BitVec 64)⟩,
   ⟨.hashSet (.int .u16), ([9, 7] : List (BitVec 16))⟩]

theorem demoAttr_typed (cfg : Cfg) : Typed cfg demoEnv (aliveFields (demoAttrFields cfg) 1) demoAttrValue := by
  have hm : ∀ {P : BitVec 16 → Prop}, P 9 → P 7 → ∀ a ∈ ([9, 7] : List (BitVec 16)), P a := by
    intro P h1 h2 a ha
    simp only [List.mem_cons, List.not_mem_nil, or_false] at ha
    rcases ha with rfl | rfl
    · exact h1
    · exact h2
  exact .cons trivial trivial (.cons (fun _ _ => trivial) ⟨by decide, rfl, fun _ _ => trivial⟩
    (.cons trivial trivial (.cons ⟨fun _ _ => trivial, .cons (fun a ha => by
      cases ha with
      | head => rfl
      | tail _ h => cases h) (.cons nofun .nil)⟩ ⟨by decide, rfl, fun _ _ => trivial⟩ .nil)))

/-- At a legacy revision, on a build without bulk vectors: eight raw bytes, a set of bits, a varint
and a plain list. -/
example : (structC ⟨false, false⟩ [⟨1, false, false⟩] (demoAttrFields ⟨false, false⟩)).enc demoAttrValue =
    .ok ([1] ++ [254, 255, 255, 255, 255, 255, 255, 255] ++ [3, 5] ++ [251, 44, 1] ++ [2, 9, 7]) := by
  refine (C87_struct ⟨false, false⟩ demoEnv_lawful demoEnv_refl _ ⟨by decide, by decide, by decide⟩ _ _
    (demoAttr_typed _) _).2 ⟨[[254, 255, 255, 255, 255, 255, 255, 255], [3, 5], [251, 44, 1], [2, 9, 7]], ?_,
      by decide, by decide⟩
  refine .cons rfl (.cons ⟨[5], rfl, packBools_packed [true, false, true]⟩ (.cons rfl (.cons ⟨[9, 7], rfl, ?_⟩ .nil)))
  exact .cons (x := [9]) rfl (.cons (x := [7]) rfl .nil)

/-- At an optimised revision with a field table: the set is sorted and indexed, `fixed` no longer
applies. -/
example : (structC .default [⟨1, true, true⟩] (demoAttrFields .default)).enc demoAttrValue =
    .ok ([1] ++ [26, 0, 0, 0] ++ [16, 0, 0, 0, 17, 0, 0, 0, 19, 0, 0, 0, 22, 0, 0, 0] ++
      [3] ++ [3, 5] ++ [251, 44, 1] ++ [0, 2, 7, 9]) := by
  refine (C87_struct .default demoEnv_lawful demoEnv_refl _ ⟨by decide, by decide, by decide⟩ _ _
    (demoAttr_typed _) _).2 ⟨[[3], [3, 5], [251, 44, 1], [0, 2, 7, 9]], ?_, by decide, by decide⟩
  refine .cons rfl (.cons ⟨[5], rfl, packBools_packed [true, false, true]⟩ (.cons rfl (.cons ?_ .nil)))
  exact ⟨[[9], [7]], [[7], [9]], .cons rfl (.cons rfl .nil), by decide, by unfold Ascending; decide, rfl⟩

/-- `enum E { U, S { …the fields above… } }`. -/
def demoAttrVariants (cfg : Cfg) : List (VariantDecl (Dyn demoEnv)) :=
  [⟨"U", { size := some .inline }, [], fun _ _ => .panic⟩,
   ⟨"S", { size := some .varlen }, demoAttrFields cfg, fun _ _ => .panic⟩]

/-- The second variant at a legacy revision. -/
example : (enumC .default [⟨1, false, false⟩] (demoAttrVariants .default)).enc ⟨"S", demoAttrValue⟩ =
    .ok ([1] ++ [1] ++ [254, 255, 255, 255, 255, 255, 255, 255] ++ [3, 5] ++ [251, 44, 1] ++ [2, 9, 7]) := by
  have hA : AcceptedEnum (lastEntry [⟨1, false, false⟩]) (demoAttrVariants .default) :=
    ⟨by unfold DistinctVariants; decide, ⟨[("S", 1), ("U", 0)], rfl, fun n d hl => by
      have : ∀ p ∈ [("S", 1), ("U", 0)], p.2 < 2 ^ 32 := by decide
      exact this _ (mem_of_lookup_eq_some _ _ _ hl)⟩, fun h => by cases h⟩
  refine (C87_enum .default [⟨1, false, false⟩] ⟨by decide, by decide, by decide⟩ _ hA
    ⟨"S", { size := some .varlen }, demoAttrFields .default, fun _ _ => .panic⟩ (by simp [demoAttrVariants]) rfl 1
    ⟨_, rfl, rfl⟩ _ (demoAttr_typed _) _).2
      ⟨[[254, 255, 255, 255, 255, 255, 255, 255], [3, 5], [251, 44, 1], [2, 9, 7]], ?_, by decide, by decide⟩
  refine .cons rfl (.cons ⟨[5], rfl, packBools_packed [true, false, true]⟩ (.cons rfl (.cons ⟨[9, 7], rfl, ?_⟩ .nil)))
  exact .cons (x := [9]) rfl (.cons (x := [7]) rfl .nil)

end Revision
