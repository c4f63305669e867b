import Verif.Proofs.AllocProgram

/-! Helper lemmas: skipping requests no memory. -/

namespace Revision

/-- The two codecs skip alike. -/
structure Codec.SkipEq (c d : Codec α) : Prop where
  skip : c.skip = d.skip
  skipS : c.skipS = d.skipS

section
variable {ι : Type} {E : Env ι} {c' : (i : ι) → Codec (E.X i)}

theorem vecOf_skipEq (cfg : Cfg) (t : Ty ι) {c d : Codec (t.denote E.X)} (h : c.SkipEq d) :
    (vecOf cfg E t c).SkipEq (vecOf cfg (E.unlimitedWith c') t d) := by
  have key : (vecC cfg (E.cap t) c).SkipEq (vecC cfg (fun _ => true) d) :=
    ⟨by simp only [vecC, h.skip], by simp only [vecC, h.skipS]⟩
  cases t <;> simp only [vecOf] <;> try exact key
  case bool =>
    split
    · exact ⟨rfl, rfl⟩
    · exact key
  case int k =>
    split
    · exact ⟨rfl, rfl⟩
    · exact key
  case float f =>
    split
    · exact ⟨rfl, rfl⟩
    · exact key
  case uuid =>
    split
    · exact ⟨rfl, rfl⟩
    · exact key

theorem collC_skipEq (cfg : Cfg) {cap cap' : Nat → Bool} {c d : Codec α} {inv inv' build build'} (h : c.SkipEq d) :
    (collC cfg cap c inv build).SkipEq (collC cfg cap' d inv' build') :=
  ⟨by simp only [collC, h.skip], by simp only [collC, h.skipS]⟩

theorem pairC_skipEq {a a' : Codec α} {b b' : Codec β} (h : a.SkipEq a') (k : b.SkipEq b') :
    (pairC a b).SkipEq (pairC a' b') :=
  ⟨by simp only [pairC, h.skip, k.skip], by simp only [pairC, h.skipS, k.skipS]⟩

theorem Ty.codec_skipEq (cfg : Cfg) (hx : ∀ i, (E.extC i).SkipEq (c' i)) (t : Ty ι) (ht : t.pathFree = true) :
    (t.codec cfg E).SkipEq (t.codec cfg (E.unlimitedWith c')) := by
  induction t with
  | unit | bool | int | float | char | string | bytes | uuid | duration | systemTime | notNan => exact ⟨rfl, rfl⟩
  | path => simp [Ty.pathFree] at ht
  | option t ih => exact ⟨by simp only [Ty.codec, optionC, (ih ht).skip], by simp only [Ty.codec, optionC, (ih ht).skipS]⟩
  | result t e iht ihe =>
    simp only [Ty.pathFree, Bool.and_eq_true] at ht
    exact ⟨by simp only [Ty.codec, resultC, (iht ht.1).skip, (ihe ht.2).skip],
      by simp only [Ty.codec, resultC, (iht ht.1).skipS, (ihe ht.2).skipS]⟩
  | bound t ih => exact ⟨by simp only [Ty.codec, boundC, (ih ht).skip], by simp only [Ty.codec, boundC, (ih ht).skipS]⟩
  | wrap t ih => exact ⟨(ih ht).skip, (ih ht).skipS⟩
  | pair s t ihs iht =>
    simp only [Ty.pathFree, Bool.and_eq_true] at ht
    exact pairC_skipEq (ihs ht.1) (iht ht.2)
  | array n t ih => exact ⟨by simp only [Ty.codec, arrayC, (ih ht).skip], by simp only [Ty.codec, arrayC, (ih ht).skipS]⟩
  | vec t ih => exact vecOf_skipEq cfg t (ih ht)
  | btreeMap k v ihk ihv | hashMap k v ihk ihv =>
    simp only [Ty.pathFree, Bool.and_eq_true] at ht
    exact collC_skipEq cfg (pairC_skipEq (ihk ht.1) (ihv ht.2))
  | btreeSet t ih | hashSet t ih | binaryHeap t ih | vector t ih => exact collC_skipEq cfg (ih ht)
  | ext i => exact hx i

end

/-! ### Derived types -/

section
variable {V : Type} {φ ψ : Type} {d d' : φ → FieldDecl V} {e e' : ψ → VariantDecl V} {F : ψ → List φ}

theorem skipFields_map {skip : FieldDecl V → Rd Unit} {cur tgt : Nat} : ∀ (fs : List φ),
    (∀ f ∈ fs, (d f).Upto False 0 (d' f)) → (∀ f ∈ fs, skip (d f) = skip (d' f)) →
    skipFields skip cur tgt (fs.map d) = skipFields skip cur tgt (fs.map d')
  | [], _, _ => rfl
  | f :: fs, h, hs => by
    have ih := skipFields_map (cur := cur) (tgt := tgt) fs (fun g hg => h g (List.mem_cons_of_mem _ hg))
      (fun g hg => hs g (List.mem_cons_of_mem _ hg))
    simp only [List.map_cons, skipFields, (h f List.mem_cons_self).existsAt, hs f List.mem_cons_self, ih]

theorem sizeTable_map (vs : List ψ) (h : ∀ v ∈ vs, (e v).Upto False 0 (F v) d d' (e' v)) (r id : Nat) :
    sizeTable (vs.map e) r id = sizeTable (vs.map e') r id := by
  obtain ⟨l, hl, h1, h2⟩ := variantArms_upto vs h r
  unfold sizeTable
  rw [h1, h2, List.findRev?_eq_find?_reverse, List.findRev?_eq_find?_reverse, ← List.map_reverse, ← List.map_reverse]
  rcases find_arms (l := l.reverse) (e := e) (e' := e') (P := fun a => a.1 == id) (fun a ha => rfl) with
    ⟨e1, e2⟩ | ⟨a, ha, e1, e2⟩
  · rw [e1, e2]
  · rw [e1, e2]
    simp only [(h _ (hl a (List.mem_reverse.1 ha))).opts]

theorem skipEnumBody_map (cfg : Cfg) {adv : Nat → Rd Unit} {skip : FieldDecl V → Rd Unit} (en : Entry) (tgt : Nat)
    (vs : List ψ) (h : ∀ v ∈ vs, (e v).Upto False 0 (F v) d d' (e' v))
    (hs : ∀ v ∈ vs, ∀ f ∈ F v, skip (d f) = skip (d' f)) :
    skipEnumBody cfg adv skip en tgt (vs.map e) = skipEnumBody cfg adv skip en tgt (vs.map e') := by
  obtain ⟨l, hl, h1, h2⟩ := variantArms_upto vs h en.revision
  unfold skipEnumBody
  rw [h1, h2]
  simp only [sizeTable_map vs h]
  split
  · rfl
  · refine congrArg (readU32 cfg >>= ·) (funext fun x => ?_)
    rcases find_arms (l := l) (e := e) (e' := e') (P := fun a => a.1 == x) (fun a ha => rfl) with
      ⟨e1, e2⟩ | ⟨a, ha, e1, e2⟩
    · rw [e1, e2]
    · have hv := h _ (hl a ha)
      rw [e1, e2]
      simp only [hv.left, hv.right]
      exact skipFields_map _ hv.fields (hs _ (hl a ha))

end

section
variable {ι : Type} {K : ι → Kind} [DecidableEq ι]

theorem Field.decl_skips (cfg : Cfg) (I : Impls K) (n : Nat) {c c' : (i : ι) → Codec (Values K n i)}
    (hc : ∀ i, (c i).SkipEq (c' i)) (f : Field K) (hf : f.ty.pathFree = true) :
    (f.decl cfg I n c).legacySkip = (f.decl cfg I.unlimited n c').legacySkip ∧
    (f.decl cfg I n c).legacySkipS = (f.decl cfg I.unlimited n c').legacySkipS := by
  have h := Ty.codec_skipEq (E := I.env n c) (c' := c') cfg hc f.ty hf
  rcases f with ⟨name, opts, t, dflt, convert⟩
  have hfx : (fixedOf cfg (I.env n c) t).skip = (fixedOf cfg (I.unlimited.env n c') t).skip := by
    have h := h.skip
    cases t <;> try exact h
    rename_i k
    cases k <;> first | exact h | rfl
  refine ⟨?_, ?_⟩
  · by_cases hb : opts.fixed = true
    · simp only [FieldDecl.legacySkip, Field.decl, tyField, hb, if_true]; exact hfx
    · simp only [FieldDecl.legacySkip, Field.decl, tyField, hb]; exact h.skip
  · by_cases hb : opts.fixed = true
    · simp only [FieldDecl.legacySkipS, Field.decl, tyField, hb, if_true]; exact hfx
    · simp only [FieldDecl.legacySkipS, Field.decl, tyField, hb]; exact h.skipS

theorem Body.codec_skipEq (cfg : Cfg) (I : Impls K) (n : Nat) {c c' : (i : ι) → Codec (Values K n i)}
    (hu : ∀ i, (c i).dec.Upto False 0 (c' i).dec) (hw : ∀ i, (c' i).dec.Eats 1)
    (hc : ∀ i, (c i).SkipEq (c' i)) (h : List Entry) : {k : Kind} → (b : Body K k) →
    (∀ t ∈ b.types, t.pathFree = true) → (b.codec cfg I n c h).SkipEq (b.codec cfg I.unlimited n c' h)
  | _, .struct fs, ht => by
    have hup : ∀ f ∈ fs, (f.decl cfg I n c).Upto False 0 (f.decl cfg I.unlimited n c') := fun f _ =>
      f.decl_upto cfg I n nofun hu hw nofun
    have hs := fun f (hf : f ∈ fs) => f.decl_skips cfg I n hc (ht _ (List.mem_map_of_mem hf))
    refine ⟨?_, ?_⟩
    · simp only [Body.codec, structC, skipStructBody, skipFields_map fs hup fun f hf => (hs f hf).1]
    · simp only [Body.codec, structC, skipSStructBody, skipFields_map fs hup fun f hf => (hs f hf).2]
  | _, .enum vs, ht => by
    have hup : ∀ v ∈ vs, (v.decl cfg I n c).Upto False 0 v.fields (fun f : Field K => f.decl cfg I n c)
        (fun f => f.decl cfg I.unlimited n c') (v.decl cfg I.unlimited n c') := fun v _ =>
      ⟨rfl, rfl, rfl, rfl, rfl, fun f _ => f.decl_upto cfg I n nofun hu hw nofun⟩
    have hs := fun v (hv : v ∈ vs) f (hf : f ∈ v.fields) => f.decl_skips cfg I n hc
      (ht _ (List.mem_flatMap.2 ⟨v, hv, List.mem_map_of_mem hf⟩))
    refine ⟨?_, ?_⟩
    · simp only [Body.codec, enumC, skipEnumBody_map cfg _ _ vs hup fun v hv f hf => (hs v hv f hf).1]
    · simp only [Body.codec, enumC, skipEnumBody_map cfg _ _ vs hup fun v hv f hf => (hs v hv f hf).2]
  | _, .foreign _, _ => ⟨rfl, rfl⟩

end

theorem Program.codec_skipEq {ι : Type} [DecidableEq ι] (cfg : Cfg) (P : Program ι) (I : Impls P.kind)
    (hP : ∀ i, ∀ t ∈ (P.body i).types, t.pathFree = true) :
    ∀ (n : Nat) (i : ι), (P.codec cfg I n i).SkipEq (P.codec cfg I.unlimited n i)
  | 0, _ => ⟨rfl, rfl⟩
  | n + 1, i => Body.codec_skipEq cfg I n (Program.codec_upto cfg P I nofun nofun n) (Program.codec_eats cfg P I n)
      (Program.codec_skipEq cfg P I hP n) (P.history i) (P.body i) (hP i)

end Revision
