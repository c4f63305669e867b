import Verif.Spec.Methods
import Verif.Model.Macro
import Std.Data.String.ToNat

/-! # C111: the methods of a generated walker have different names -/

namespace Revision

theorem pairwise_all {R : α → α → Prop} (hs : ∀ a b, R a b → R b a) (hr : ∀ a, R a a) {l : List α}
    (h : l.Pairwise R) : ∀ a ∈ l, ∀ b ∈ l, R a b := by
  induction h with
  | nil => simp
  | cons hx _ ih =>
    intro a ha b hb
    rcases List.mem_cons.1 ha with rfl | ha'
    · rcases List.mem_cons.1 hb with rfl | hb'
      · exact hr _
      · exact hx _ hb'
    · rcases List.mem_cons.1 hb with rfl | hb'
      · exact hs _ _ (hx _ ha')
      · exact ih _ ha' _ hb'

/-! ### Structs -/

theorem fieldMethods_nodup (a : String) : (fieldMethods a).Nodup := by
  simp [fieldMethods, ← String.toList_inj]
  intro h
  have := congrArg List.length h
  simp at this

theorem fieldMethods_disjoint {a b : String} (hab : a ≠ b) :
    (∀ x ∈ fieldMethods a, ∀ y ∈ fieldMethods b, x ≠ y) ↔
      "walk_" ++ a ≠ b ++ "_bytes" ∧ "walk_" ++ b ≠ a ++ "_bytes" := by
  have hab' : a.toList ≠ b.toList := fun h => hab (String.toList_inj.1 h)
  have hab'' : a ++ "_bytes" ≠ b ++ "_bytes" := by simp [← String.toList_inj, hab']
  simp only [fieldMethods, List.mem_cons, List.not_mem_nil, or_false, forall_eq_or_imp, forall_eq]
  simp [← String.toList_inj, hab']
  intro _
  exact ⟨fun h h' => h h'.symm, fun h h' => h h'.symm⟩

theorem structMethods_nodup (fs : LiveFields) (h : fs.bases.Nodup) :
    (structMethods fs).Nodup ↔ ∀ a ∈ fs.bases, ∀ b ∈ fs.bases, "walk_" ++ a ≠ b ++ "_bytes" := by
  have hr : "revision" ∉ fs.bases.flatMap fieldMethods := by
    simp [fieldMethods, ← String.toList_inj]
  have hself : ∀ a : String, "walk_" ++ a ≠ a ++ "_bytes" := by
    intro a h
    have := congrArg (fun s => s.toList.length) h
    simp at this
  rw [structMethods, List.nodup_cons, and_iff_right hr, List.Nodup, List.pairwise_flatMap]
  constructor
  · rintro ⟨-, hp⟩ a ha b hb
    by_cases hab : a = b
    · subst hab; exact hself a
    · have hp' : fs.bases.Pairwise fun a b => "walk_" ++ a ≠ b ++ "_bytes" ∧ "walk_" ++ b ≠ a ++ "_bytes" :=
        (hp.and h).imp fun h => (fieldMethods_disjoint h.2).1 h.1
      exact (pairwise_all (fun _ _ h => h.symm) (fun a => ⟨hself a, hself a⟩) hp' a ha b hb).1
  · intro hc
    refine ⟨fun a _ => fieldMethods_nodup a, List.Pairwise.imp_of_mem ?_ h⟩
    intro a b ha hb hab
    exact (fieldMethods_disjoint hab).2 ⟨hc a ha b hb, hc b hb a ha⟩

/-- What methods the walker of a struct has: the revision, and for each field of the current revision, by its name
or for tuple structs by its number, decoding it, skipping it, walking it, also for good, and its bytes. -/
theorem C111_struct_methods (fs : LiveFields) (m : String) : m ∈ structMethods fs ↔ m = "revision" ∨
    ∃ b, (match fs with
        | .named names => b ∈ names
        | .tuple n => ∃ i < n, b = "field_" ++ Nat.repr i) ∧
      (m = "decode_" ++ b ∨ m = "skip_" ++ b ∨ m = "walk_" ++ b ∨ m = "into_walk_" ++ b ∨ m = "into_" ++ b ++ "_bytes") := by
  cases fs
  · simp only [structMethods, LiveFields.bases, fieldMethods, List.mem_cons, List.mem_flatMap, List.not_mem_nil,
      or_false]
  · simp only [structMethods, fieldMethods, List.mem_cons, List.mem_flatMap, List.not_mem_nil, or_false,
      LiveFields.bases, List.mem_map, List.mem_range]
    constructor
    · rintro (h | ⟨_, ⟨i, hi, rfl⟩, h⟩)
      · exact .inl h
      · exact .inr ⟨_, ⟨i, hi, rfl⟩, h⟩
    · rintro (h | ⟨_, ⟨i, hi, rfl⟩, h⟩)
      · exact .inl h
      · exact .inr ⟨_, ⟨i, hi, rfl⟩, h⟩

example : "into_name_bytes" ∈ structMethods (.named ["id", "name"]) :=
  (C111_struct_methods _ _).2 (.inr ⟨"name", by simp, by decide +kernel⟩)

/-- The methods of the walker of a struct with named fields have different names exactly if there are no two
fields of which one is called `walk_x` if the other is called `x_bytes`, for some `x` or nothing: both would get a
method `into_walk_x_bytes`.

Missing from the full property: structs with such fields (`C111_struct_false`). -/
theorem C111_struct_partial (names : List String) (h : names.Nodup) :
    (structMethods (.named names)).Nodup ↔ ∀ a ∈ names, ∀ b ∈ names, "walk_" ++ a ≠ b ++ "_bytes" :=
  structMethods_nodup (.named names) h

example : (structMethods (.named ["id", "walk_id", "name", "bytes", "name_bytes"])).Nodup := by decide +kernel

/-- The methods of the walker of a tuple struct always have different names. -/
theorem C111_tuple (n : Nat) : (structMethods (.tuple n)).Nodup := by
  refine (structMethods_nodup _ ?_).2 ?_
  · simp only [LiveFields.bases, List.Nodup, List.pairwise_map]
    refine List.nodup_range.imp ?_
    intro i j hij h
    rw [← String.toList_inj] at h
    simp only [String.toList_append, List.append_cancel_left_eq, String.toList_inj] at h
    exact hij (Nat.repr_inj.1 h)
  · intro a ha b hb
    simp only [LiveFields.bases, List.mem_map] at ha hb
    obtain ⟨i, -, rfl⟩ := ha
    obtain ⟨j, -, rfl⟩ := hb
    simp [← String.toList_inj]

/-- A struct with fields `walk` and `bytes`, which the macro accepts, gets two methods `into_walk_bytes`. -/
theorem C111_struct_false : ∃ (s : ItemSrc) (x : Expansion) (fs : List FieldAst), expand s = .ok x ∧ .walk ∈ x.impls ∧
    x.body = .struct fs ∧ ((fs.filter (·.existsAt x.revision)).map FieldAst.name).Nodup ∧
    ¬ (structMethods (.named ((fs.filter (·.existsAt x.revision)).map FieldAst.name))).Nodup :=
  ⟨⟨[.revision 1], [], .struct [⟨"walk", "u8", []⟩, ⟨"bytes", "u8", []⟩]⟩, _, _, rfl, by decide +kernel, rfl,
    by decide +kernel, by decide +kernel⟩

/-! ### Snake case -/

theorem toLower_inj_upper {c d : Char} (hc : c.isUpper = true) (hd : d.isUpper = true)
    (h : c.toLower = d.toLower) : c = d := by
  simp only [Char.isUpper, decide_eq_true_eq] at hc hd
  simp only [Char.toLower, dif_pos hc, dif_pos hd, Char.mk.injEq] at h
  apply Char.ext
  rw [← UInt32.toNat_inj] at h ⊢
  have h1 := UInt32.le_iff_toNat_le.1 hc.2
  have h2 := UInt32.le_iff_toNat_le.1 hd.2
  simp only [UInt32.toNat_add] at h
  have e1 : 'Z'.val.toNat = 90 := rfl
  have e2 : ('a'.val - 'A'.val).toNat = 32 := rfl
  omega

theorem toLower_of_not_upper {c : Char} (hc : c.isUpper = false) : c.toLower = c := by
  simp only [Char.isUpper, decide_eq_false_iff_not] at hc
  simp only [Char.toLower, dif_neg hc]

theorem snakeTail_inj : ∀ {a b : List Char}, (∀ c ∈ a, c.isAlphanum = true) → (∀ c ∈ b, c.isAlphanum = true) →
    snakeTail a = snakeTail b → a = b := by
  have hu : '_'.isAlphanum = false := by decide
  intro a
  induction a with
  | nil =>
    intro b _ _ h
    cases b with
    | nil => rfl
    | cons d b => simp only [snakeTail] at h; split at h <;> cases h
  | cons c a ih =>
    intro b ha hb h
    cases b with
    | nil => simp only [snakeTail] at h; split at h <;> cases h
    | cons d b =>
      have ha' := fun x hx => ha x (List.mem_cons_of_mem _ hx)
      have hb' := fun x hx => hb x (List.mem_cons_of_mem _ hx)
      have hc := ha c List.mem_cons_self
      have hd := hb d List.mem_cons_self
      simp only [snakeTail] at h
      split at h <;> split at h <;> rename_i h1 h2
      · injection h with _ h
        injection h with h3 h
        rw [toLower_inj_upper h1 h2 h3, ih ha' hb' h]
      · injection h with h3 h
        rw [toLower_of_not_upper (by simpa using h2)] at h3
        rw [← h3, hu] at hd
        cases hd
      · injection h with h3 h
        rw [toLower_of_not_upper (by simpa using h1)] at h3
        rw [h3, hu] at hc
        cases hc
      · injection h with h3 h
        rw [toLower_of_not_upper (by simpa using h1), toLower_of_not_upper (by simpa using h2)] at h3
        rw [h3, ih ha' hb' h]

/-- Different names of variants in the usual style stay different in the names of methods.

Missing from the full property: names of other styles (`C111_snake_false`). -/
theorem C111_snake_partial (a b : String) (ha : UpperCamel a) (hb : UpperCamel b) (h : snakeCase a = snakeCase b) :
    a = b := by
  obtain ⟨c, cs, ha, hc, hcs⟩ := ha
  obtain ⟨d, ds, hb, hd, hds⟩ := hb
  simp only [snakeCase, ha, hb] at h
  have h := congrArg String.toList h
  simp only [String.toList_ofList] at h
  injection h with h1 h2
  rw [← String.toList_inj, ha, hb, toLower_inj_upper hc hd h1, snakeTail_inj hcs hds h2]

example : snakeCase "HttpRequest2" = "http_request2" := by decide +kernel

example : UpperCamel "HttpRequest2" := ⟨'H', "ttpRequest2".toList, by decide +kernel, by decide, by decide +kernel⟩

/-- The variants `FooBar` and `Foo_bar`, and `A` and `a`, share their methods. -/
theorem C111_snake_false : snakeCase "FooBar" = snakeCase "Foo_bar" ∧ snakeCase "A" = snakeCase "a" := by
  decide +kernel

/-! ### Enums -/

theorem snakeTail_append (a b : List Char) : snakeTail (a ++ b) = snakeTail a ++ snakeTail b := by
  induction a with
  | nil => rfl
  | cons c a ih => simp only [List.cons_append, snakeTail, ih]; split <;> rfl

/-- Snake case of a composed name. -/
theorem snakeCase_append (a b : String) (ha : UpperCamel a) (hb : UpperCamel b) :
    snakeCase (a ++ b) = snakeCase a ++ "_" ++ snakeCase b := by
  obtain ⟨c, cs, ha, hc, hcs⟩ := ha
  obtain ⟨d, ds, hb, hd, hds⟩ := hb
  rw [← String.toList_inj]
  simp only [snakeCase, String.toList_append, ha, hb, List.cons_append, String.toList_ofList, snakeTail_append]
  simp only [snakeTail, hd, if_pos]
  simp

theorem UpperCamel.append {a b : String} (ha : UpperCamel a) (hb : UpperCamel b) : UpperCamel (a ++ b) := by
  obtain ⟨c, cs, ha, hc, hcs⟩ := ha
  obtain ⟨d, ds, hb, hd, hds⟩ := hb
  refine ⟨c, cs ++ d :: ds, by simp [ha, hb], hc, ?_⟩
  intro x hx
  rcases List.mem_append.1 hx with hx | hx
  · exact hcs x hx
  · rcases List.mem_cons.1 hx with rfl | hx
    · simp [Char.isAlphanum, Char.isAlpha, hd]
    · exact hds x hx

/-- The names of the methods of a variant other than the view. -/
def LiveVariant.prefixes (v : LiveVariant) : List String :=
  if v.form = .other then ["is_"] else ["is_", "into_", "decode_"]

theorem mem_variantMethods (v : LiveVariant) (x : String) : x ∈ variantMethods v ↔
    (∃ p ∈ v.prefixes, x = p ++ snakeCase v.name) ∨ (v.Viewed ∧ x = snakeCase v.name ++ "_view") := by
  cases v with
  | mk n f => cases f <;> simp [variantMethods, LiveVariant.prefixes, LiveVariant.Viewed, or_assoc]

theorem prefix_inj {p q a b : String} (hp : p ∈ ["is_", "into_", "decode_"]) (hq : q ∈ ["is_", "into_", "decode_"])
    (h : p ++ a = q ++ b) : p = q ∧ a = b := by
  simp only [List.mem_cons, List.not_mem_nil, or_false] at hp hq
  rcases hp with rfl | rfl | rfl <;> rcases hq with rfl | rfl | rfl <;>
    simp [← String.toList_inj] at h ⊢ <;> exact h

theorem mem_prefixes {v : LiveVariant} {p : String} (h : p ∈ v.prefixes) : p ∈ ["is_", "into_", "decode_"] := by
  simp only [LiveVariant.prefixes] at h
  split at h
  · simp_all
  · exact h

theorem variantMethods_nodup (v : LiveVariant) :
    (variantMethods v).Nodup ↔ (v.Viewed → ∀ p ∈ v.prefixes, snakeCase v.name ++ "_view" ≠ p ++ snakeCase v.name) := by
  cases v with
  | mk n f =>
    cases f <;> simp only [variantMethods, LiveVariant.prefixes, LiveVariant.Viewed, reduceCtorEq, if_false, if_true,
      List.mem_cons, List.not_mem_nil, or_false, forall_eq_or_imp, forall_eq, List.nodup_cons, ne_eq, not_or,
      not_true_eq_false, not_false_eq_true, false_imp_iff, true_imp_iff, List.nodup_nil, and_true] <;>
      simp [← String.toList_inj, @eq_comm _ (_ ++ ['_', 'v', 'i', 'e', 'w'])]

theorem variantMethods_disjoint (v w : LiveVariant) :
    (∀ x ∈ variantMethods v, ∀ y ∈ variantMethods w, x ≠ y) ↔
      snakeCase v.name ≠ snakeCase w.name ∧
      (v.Viewed → ∀ p ∈ w.prefixes, snakeCase v.name ++ "_view" ≠ p ++ snakeCase w.name) ∧
      (w.Viewed → ∀ p ∈ v.prefixes, snakeCase w.name ++ "_view" ≠ p ++ snakeCase v.name) := by
  have his : ∀ v : LiveVariant, "is_" ∈ v.prefixes := by
    intro v; simp only [LiveVariant.prefixes]; split <;> simp
  simp only [mem_variantMethods]
  constructor
  · intro h
    refine ⟨fun e => ?_, fun hv p hp e => ?_, fun hw p hp e => ?_⟩
    · exact h _ (.inl ⟨"is_", his v, rfl⟩) _ (.inl ⟨"is_", his w, rfl⟩) (by rw [e])
    · exact h _ (.inr ⟨hv, rfl⟩) _ (.inl ⟨p, hp, rfl⟩) e
    · exact h _ (.inl ⟨p, hp, rfl⟩) _ (.inr ⟨hw, rfl⟩) e.symm
  · rintro ⟨h1, h2, h3⟩ x (⟨p, hp, rfl⟩ | ⟨hv, rfl⟩) y (⟨q, hq, rfl⟩ | ⟨hw, rfl⟩) e
    · exact h1 (prefix_inj (mem_prefixes hp) (mem_prefixes hq) e).2
    · exact h3 hw p hp e.symm
    · exact h2 hv q hq e
    · refine h1 (String.toList_inj.1 ?_)
      simpa using congrArg String.toList e

theorem enumMethods_nodup (vs : List LiveVariant) : (enumMethods vs).Nodup ↔
    (vs.map fun v => snakeCase v.name).Nodup ∧
    ∀ v ∈ vs, v.Viewed → ∀ w ∈ vs, ∀ p ∈ w.prefixes, snakeCase v.name ++ "_view" ≠ p ++ snakeCase w.name := by
  have hr : ∀ s ∈ ["revision", "discriminant"], s ∉ vs.flatMap variantMethods := by
    intro s hs h
    obtain ⟨v, -, h⟩ := List.mem_flatMap.1 h
    rcases (mem_variantMethods _ _).1 h with ⟨p, hp, h⟩ | ⟨-, h⟩
    · have hp := mem_prefixes hp
      simp only [List.mem_cons, List.not_mem_nil, or_false] at hp hs
      rcases hs with rfl | rfl <;> rcases hp with rfl | rfl | rfl <;> simp [← String.toList_inj] at h
    · have h := congrArg (fun s => s.toList.getLast?) h
      simp only [List.mem_cons, List.not_mem_nil, or_false] at hs
      rcases hs with rfl | rfl <;> simp at h
  have e : (enumMethods vs).Nodup ↔ (vs.flatMap variantMethods).Nodup := by
    rw [enumMethods, List.nodup_cons, List.nodup_cons]
    have := hr "revision" (by simp)
    have := hr "discriminant" (by simp)
    simp_all
  rw [e]
  simp only [List.Nodup, List.pairwise_flatMap, List.pairwise_map]
  constructor
  · rintro ⟨h1, h2⟩
    have h2 := h2.imp fun h => (variantMethods_disjoint _ _).1 h
    refine ⟨h2.imp fun h => h.1, ?_⟩
    intro v hv hvv w hw
    by_cases hvw : v = w
    · subst hvw; exact (variantMethods_nodup v).1 (h1 v hv) hvv
    · let R (v w : LiveVariant) : Prop := v ≠ w →
        (v.Viewed → ∀ p ∈ w.prefixes, snakeCase v.name ++ "_view" ≠ p ++ snakeCase w.name) ∧
        (w.Viewed → ∀ p ∈ v.prefixes, snakeCase w.name ++ "_view" ≠ p ++ snakeCase v.name)
      have h3 : vs.Pairwise R := h2.imp fun h _ => h.2
      exact (pairwise_all (fun _ _ h hn => (h hn.symm).symm) (fun _ h => absurd rfl h) h3 v hv w hw hvw).1 hvv
  · rintro ⟨h1, h2⟩
    refine ⟨fun v hv => (variantMethods_nodup v).2 fun h => h2 v hv h v hv, List.Pairwise.imp_of_mem ?_ h1⟩
    intro v w hv hw h
    exact (variantMethods_disjoint v w).2 ⟨h, fun hx => h2 v hv hx w hw, fun hx => h2 w hw hx v hv⟩

/-- What methods the walker of an enum has: the revision and the discriminant, and for each variant of the current
revision a test for it, for units and variants with a single field without name its content, borrowed and decoded,
and for all with fields a view. -/
theorem C111_enum_methods (vs : List LiveVariant) (m : String) : m ∈ enumMethods vs ↔
    m = "revision" ∨ m = "discriminant" ∨ ∃ v ∈ vs, m = "is_" ++ snakeCase v.name ∨
      (v.form ≠ .other ∧ (m = "into_" ++ snakeCase v.name ∨ m = "decode_" ++ snakeCase v.name)) ∨
      (v.form ≠ .unit ∧ m = snakeCase v.name ++ "_view") := by
  have hv : ∀ v : LiveVariant, m ∈ variantMethods v ↔ (m = "is_" ++ snakeCase v.name ∨
      (v.form ≠ .other ∧ (m = "into_" ++ snakeCase v.name ∨ m = "decode_" ++ snakeCase v.name)) ∨
      (v.form ≠ .unit ∧ m = snakeCase v.name ++ "_view")) := by
    rintro ⟨n, f⟩
    cases f <;> simp [variantMethods, or_assoc]
  simp only [enumMethods, List.mem_cons, List.mem_flatMap, hv]

example : "http_request_view" ∈ enumMethods [⟨"Empty", .unit⟩, ⟨"HttpRequest", .other⟩] :=
  (C111_enum_methods _ _).2 (.inr (.inr ⟨⟨"HttpRequest", .other⟩, by simp, .inr (.inr ⟨nofun, by decide +kernel⟩)⟩))

/-- If the variants of an enum have different names in the usual style, the methods of its walker have different
names exactly if no two variants, the first one with fields, are called like `IsText` and `TextView`: both would
get a method `is_text_view`. The same goes for `Into` and `Decode` if the second is a unit or has a single field
without name.

Missing from the full property: enums with such variants (`C111_enum_false`) and names of other styles
(`C111_snake_false`). -/
theorem C111_enum_partial (vs : List LiveVariant) (hc : ∀ v ∈ vs, UpperCamel v.name)
    (hd : (vs.map LiveVariant.name).Nodup) :
    (enumMethods vs).Nodup ↔ ∀ v ∈ vs, v.Viewed → ∀ w ∈ vs, ∀ p ∈ w.verbs, v.name ++ "View" ≠ p ++ w.name := by
  have hV : UpperCamel "View" := ⟨'V', "iew".toList, by decide +kernel, by decide, by decide +kernel⟩
  have hverb : ∀ p ∈ ["Is", "Into", "Decode"], UpperCamel p := by
    intro p hp
    simp only [List.mem_cons, List.not_mem_nil, or_false] at hp
    rcases hp with rfl | rfl | rfl
    · exact ⟨'I', "s".toList, by decide +kernel, by decide, by decide +kernel⟩
    · exact ⟨'I', "nto".toList, by decide +kernel, by decide, by decide +kernel⟩
    · exact ⟨'D', "ecode".toList, by decide +kernel, by decide, by decide +kernel⟩
  have hpre : ∀ w : LiveVariant, w.prefixes = w.verbs.map (snakeCase · ++ "_") := by
    intro w; simp only [LiveVariant.prefixes, LiveVariant.verbs]; split <;> decide +kernel
  have hsub : ∀ w : LiveVariant, ∀ p ∈ w.verbs, UpperCamel p := by
    intro w p hp
    refine hverb p ?_
    simp only [LiveVariant.verbs] at hp
    split at hp
    · simp_all
    · exact hp
  have hview : snakeCase "View" = "view" := by decide +kernel
  have key : ∀ v ∈ vs, ∀ w ∈ vs, ∀ p ∈ w.verbs,
      (snakeCase v.name ++ "_view" = snakeCase p ++ "_" ++ snakeCase w.name ↔ v.name ++ "View" = p ++ w.name) := by
    intro v hv w hw p hp
    have e1 : snakeCase v.name ++ "_view" = snakeCase (v.name ++ "View") := by
      rw [snakeCase_append _ _ (hc v hv) hV, hview, String.append_assoc]; rfl
    rw [e1, ← snakeCase_append _ _ (hsub w p hp) (hc w hw)]
    exact ⟨fun h => C111_snake_partial _ _ ((hc v hv).append hV) ((hsub w p hp).append (hc w hw)) h, fun h => by rw [h]⟩
  rw [enumMethods_nodup, and_iff_right]
  · constructor
    · intro h v hv hvv w hw p hp e
      refine h v hv hvv w hw (snakeCase p ++ "_") ?_ ((key v hv w hw p hp).2 e)
      rw [hpre]; exact List.mem_map.2 ⟨p, hp, rfl⟩
    · intro h v hv hvv w hw q hq e
      rw [hpre] at hq
      obtain ⟨p, hp, rfl⟩ := List.mem_map.1 hq
      exact h v hv hvv w hw p hp ((key v hv w hw p hp).1 e)
  · rw [List.Nodup, List.pairwise_map] at hd ⊢
    refine List.Pairwise.imp_of_mem ?_ hd
    intro v w hv hw h e
    exact h (C111_snake_partial _ _ (hc v hv) (hc w hw) e)

/-- The hypotheses are met by an enum with variants of all forms. -/
example : (enumMethods [⟨"Empty", .unit⟩, ⟨"Text", .newtype⟩, ⟨"IsText", .unit⟩, ⟨"TextView", .other⟩,
    ⟨"HttpRequest2", .other⟩]).Nodup := by
  decide +kernel

/-- An enum with variants `IsText { .. }` and `TextView` gets two methods `is_text_view`. -/
theorem C111_enum_false : ∃ vs : List LiveVariant, (∀ v ∈ vs, UpperCamel v.name) ∧ (vs.map LiveVariant.name).Nodup ∧
    ¬ (enumMethods vs).Nodup := by
  refine ⟨[⟨"IsText", .other⟩, ⟨"TextView", .unit⟩], ?_, by decide +kernel, by decide +kernel⟩
  intro v hv
  simp only [List.mem_cons, List.not_mem_nil, or_false] at hv
  rcases hv with rfl | rfl
  · exact ⟨'I', "sText".toList, by decide +kernel, by decide, by decide +kernel⟩
  · exact ⟨'T', "extView".toList, by decide +kernel, by decide, by decide +kernel⟩

/-- The macro accepts such an enum. -/
example : ∃ (x : Expansion) (vs : List VariantAst),
    expand ⟨[.revision 1], [], .enum [⟨"IsText", [], [⟨"text", "u8", []⟩]⟩, ⟨"TextView", [], []⟩]⟩ = .ok x ∧
    .walk ∈ x.impls ∧ x.body = .enum vs ∧
    (vs.filter (·.existsAt x.revision)).map VariantAst.ident = ["IsText", "TextView"] :=
  ⟨_, _, rfl, by decide +kernel, rfl, by decide +kernel⟩

end Revision
