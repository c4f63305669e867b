import Verif.Spec.ProgramLift
import Verif.Proofs.ProgramFaithful

/-! Helper lemmas: lifting a value to a greater depth changes neither its bytes nor its validity. -/

namespace Revision

/-- `n` writes `f v` as `o` writes `v`. -/
structure Codec.Lifts (o : Codec α) (n : Codec β) (f : α → β) : Prop where
  valid : ∀ v, o.valid v → n.valid (f v)
  enc : ∀ v, n.enc (f v) = o.enc v

theorem Codec.Lifts.refl (c : Codec α) : c.Lifts c (fun v => v) := ⟨fun _ h => h, fun _ => rfl⟩

theorem encList_map {e : α → Res Bytes} {e' : β → Res Bytes} {f : α → β} (h : ∀ a, e' (f a) = e a) :
    ∀ l : List α, encList e' (l.map f) = encList e l
  | [] => rfl
  | a :: l => by
    rw [List.map_cons, encList, encList, h, encList_map h l]

theorem encEach_map {e : α → Res γ} {e' : β → Res γ} {f : α → β} (h : ∀ a, e' (f a) = e a) :
    ∀ l : List α, encEach e' (l.map f) = encEach e l
  | [] => rfl
  | a :: l => by
    rw [List.map_cons, encEach, encEach, h, encEach_map h l]

theorem pairC_lifts {a : Codec α} {b : Codec β} {a' : Codec γ} {b' : Codec δ} {f : α → γ} {g : β → δ}
    (h : a.Lifts a' f) (k : b.Lifts b' g) : (pairC a b).Lifts (pairC a' b') (fun p => (f p.1, g p.2)) :=
  ⟨fun v hv => ⟨h.valid _ hv.1, k.valid _ hv.2⟩, fun v => by simp only [pairC, h.enc, k.enc]⟩

theorem vecC_lifts (cfg : Cfg) (cap : Nat → Bool) {c : Codec α} {d : Codec β} {f : α → β} (h : c.Lifts d f) :
    (vecC cfg cap c).Lifts (vecC cfg cap d) (List.map f) where
  valid l hl := by
    obtain ⟨h1, h2, h3⟩ := hl
    refine ⟨by rwa [List.length_map], fun hne => by rw [List.length_map]; exact h2 (by simpa using hne), ?_⟩
    intro b hb
    obtain ⟨a, ha, rfl⟩ := List.mem_map.1 hb
    exact h.valid _ (h3 a ha)
  enc l := by simp only [vecC, encList_map h.enc, List.length_map]

theorem collC_lifts (cfg : Cfg) (cap : Nat → Bool) {c : Codec α} {d : Codec β} {f : α → β} {inv inv' build build'}
    (h : c.Lifts d f) (hi : ∀ l, inv l → inv' (l.map f)) :
    (collC cfg cap c inv build).Lifts (collC cfg cap d inv' build') (List.map f) where
  valid l hl := by
    obtain ⟨h1, h2, h3, h4⟩ := hl
    refine ⟨by rwa [List.length_map], by rwa [List.length_map], ?_, hi l h4⟩
    intro b hb
    obtain ⟨a, ha, rfl⟩ := List.mem_map.1 hb
    exact h.valid _ (h3 a ha)
  enc l := by simp only [collC, encList_map h.enc, List.length_map]

theorem strictAsc_map {cmp : α → α → Ordering} {cmp' : β → β → Ordering} {f : α → β}
    (h : ∀ a b, cmp' (f a) (f b) = cmp a b) {l : List α} (hl : StrictAsc cmp l) : StrictAsc cmp' (l.map f) := by
  unfold StrictAsc at *
  rw [List.pairwise_map]
  simpa only [h] using hl

theorem distinctKeys_map {eq : α → α → Bool} {eq' : β → β → Bool} {f : α → β}
    (h : ∀ a b, eq' (f a) (f b) = eq a b) {l : List α} (hl : DistinctKeys eq l) : DistinctKeys eq' (l.map f) := by
  unfold DistinctKeys at *
  rw [List.pairwise_map]
  simpa only [h] using hl

theorem heapShape_map {cmp : α → α → Ordering} {cmp' : β → β → Ordering} {f : α → β}
    (h : ∀ a b, cmp' (f a) (f b) = cmp a b) {l : List α} (hl : HeapShape cmp l) : HeapShape cmp' (l.map f) := by
  intro i x p hi hx hp
  rw [List.getElem?_map] at hx hp
  obtain ⟨a, ha, rfl⟩ := Option.map_eq_some_iff.1 hx
  obtain ⟨b, hb, rfl⟩ := Option.map_eq_some_iff.1 hp
  rw [h]
  exact hl i a b hi ha hb

theorem map_fst_map {f : α → γ} {g : β → δ} (l : List (α × β)) :
    (l.map fun p => (f p.1, g p.2)).map Prod.fst = (l.map Prod.fst).map f := by
  rw [List.map_map, List.map_map]
  rfl

section
variable {ι : Type} {E E' : Env ι}

/-- Two environments that differ only in the further types. -/
structure Env.Lifts (E E' : Env ι) (f : (i : ι) → E.X i → E'.X i) : Prop where
  ext : ∀ i, (E.extC i).Lifts (E'.extC i) (f i)
  cap : E'.cap = E.cap
  cmp : ∀ t a b, E'.cmp t (t.map f a) (t.map f b) = E.cmp t a b
  eq : ∀ t a b, E'.eq t (t.map f a) (t.map f b) = E.eq t a b

variable {f : (i : ι) → E.X i → E'.X i}

theorem vecOf_lifts (cfg : Cfg) (h : E.Lifts E' f) (t : Ty ι) {c : Codec (t.denote E.X)} {d : Codec (t.denote E'.X)}
    (hc : c.Lifts d (t.map f)) : (vecOf cfg E t c).Lifts (vecOf cfg E' t d) (List.map (t.map f)) := by
  have hv := vecC_lifts cfg (E.cap t) hc
  rw [← h.cap] at hv
  cases t
  case bool | int | float | uuid =>
    all_goals
      simp only [vecOf]
      split
      · rw [h.cap]
        have e : ∀ {α : Type}, List.map (fun v : α => v) = fun l => l := by
          intro α; funext l; exact List.map_id' l
        simp only [Ty.map, e]
        exact Codec.Lifts.refl _
      · rw [h.cap] at hv ⊢; exact hv
  all_goals
    simp only [vecOf]
    rw [h.cap] at hv ⊢; exact hv

theorem Ty.codec_lifts (cfg : Cfg) (h : E.Lifts E' f) (t : Ty ι) :
    (t.codec cfg E).Lifts (t.codec cfg E') (t.map f) := by
  induction t with
  | unit | bool | int | float | char | uuid | duration | systemTime | notNan =>
    exact Codec.Lifts.refl _
  | string | path | bytes =>
    simp only [Ty.codec, h.cap]
    exact Codec.Lifts.refl _
  | option t ih =>
    refine ⟨fun v hv => ?_, fun v => ?_⟩
    · cases v with
      | none => trivial
      | some a => exact ih.valid a hv
    · cases v with
      | none => rfl
      | some a => simp only [Ty.codec, Ty.map, Option.map, optionC, ih.enc]
  | result t e iht ihe =>
    refine ⟨fun v hv => ?_, fun v => ?_⟩
    · cases v with
      | error a => exact ihe.valid a hv
      | ok a => exact iht.valid a hv
    · cases v with
      | error a => simp only [Ty.codec, Ty.map, resultC, ihe.enc]
      | ok a => simp only [Ty.codec, Ty.map, resultC, iht.enc]
  | bound t ih =>
    refine ⟨fun v hv => ?_, fun v => ?_⟩
    · cases v with
      | unbounded => trivial
      | included a => exact ih.valid a hv
      | excluded a => exact ih.valid a hv
    · cases v with
      | unbounded => rfl
      | included a => simp only [Ty.codec, Ty.map, boundC, ih.enc]
      | excluded a => simp only [Ty.codec, Ty.map, boundC, ih.enc]
  | wrap t ih => exact ⟨ih.valid, ih.enc⟩
  | pair s t ihs iht => exact pairC_lifts ihs iht
  | array k t ih =>
    refine ⟨fun l hl => ⟨by simpa only [Ty.map, List.length_map] using hl.1, fun b hb => ?_⟩, fun l => encList_map ih.enc l⟩
    obtain ⟨a, ha, rfl⟩ := List.mem_map.1 hb
    exact ih.valid _ (hl.2 a ha)
  | vec t ih => exact vecOf_lifts cfg h t ih
  | btreeMap k v ihk ihv =>
    simp only [Ty.codec, h.cap]
    exact collC_lifts cfg _ (pairC_lifts ihk ihv) fun l hl => by
      rw [map_fst_map]; exact strictAsc_map (h.cmp k) hl
  | btreeSet k ih =>
    simp only [Ty.codec, h.cap]
    exact collC_lifts cfg _ ih fun l hl => strictAsc_map (h.cmp k) hl
  | hashMap k v ihk ihv =>
    simp only [Ty.codec, h.cap]
    exact collC_lifts cfg _ (pairC_lifts ihk ihv) fun l hl => by
      rw [map_fst_map]; exact distinctKeys_map (h.eq k) hl
  | hashSet k ih =>
    simp only [Ty.codec, h.cap]
    exact collC_lifts cfg _ ih fun l hl => distinctKeys_map (h.eq k) hl
  | binaryHeap t ih =>
    simp only [Ty.codec, h.cap]
    exact collC_lifts cfg _ ih fun l hl => heapShape_map (h.cmp t) hl
  | vector t ih =>
    simp only [Ty.codec, h.cap]
    exact collC_lifts cfg _ ih fun _ _ => trivial
  | ext i => exact h.ext i

theorem fixedOf_lifts (cfg : Cfg) (h : E.Lifts E' f) (t : Ty ι) :
    (fixedOf cfg E t).Lifts (fixedOf cfg E' t) (t.map f) := by
  have key := Ty.codec_lifts cfg h t
  cases t <;> first | exact Codec.Lifts.refl _ | exact key

theorem bulkOf_lifts (cfg : Cfg) (h : E.Lifts E' f) (t : Ty ι) :
    (bulkOf cfg E t).Lifts (bulkOf cfg E' t) (t.map f) := by
  have key := Ty.codec_lifts cfg h t
  cases t
  case vec t => exact vecOf_lifts _ h t (Ty.codec_lifts cfg h t)
  all_goals exact key

theorem smallEach_map {e : α → Res Bytes} {e' : β → Res Bytes} {f : α → β} (h : ∀ a, e' (f a) = e a) {l : List α}
    (hl : SmallEach e l) : SmallEach e' (l.map f) := by
  intro b hb
  obtain ⟨a, ha, rfl⟩ := List.mem_map.1 hb
  rw [h]
  exact hl a ha

theorem smallPairs_map {k : α → Res Bytes} {v : β → Res Bytes} {k' : γ → Res Bytes} {v' : δ → Res Bytes} {f : α → γ}
    {g : β → δ} (hf : ∀ a, k' (f a) = k a) (hg : ∀ a, v' (g a) = v a) {l : List (α × β)}
    (hl : SmallPairs k v l) : SmallPairs k' v' (l.map fun p => (f p.1, g p.2)) := by
  intro b hb
  obtain ⟨a, ha, rfl⟩ := List.mem_map.1 hb
  simp only [hf, hg]
  exact hl a ha

theorem forall_mem_map {p : α → Prop} {q : β → Prop} {f : α → β} (h : ∀ a, p a → q (f a)) {l : List α}
    (hl : ∀ a ∈ l, p a) : ∀ b ∈ l.map f, q b := by
  intro b hb
  obtain ⟨a, ha, rfl⟩ := List.mem_map.1 hb
  exact h _ (hl a ha)

theorem serializeIndexedEntries_map {k : α → Res Bytes} {v : β → Res Bytes} {k' : γ → Res Bytes} {v' : δ → Res Bytes}
    {f : α → γ} {g : β → δ} (hf : ∀ a, k' (f a) = k a) (hg : ∀ a, v' (g a) = v a) (l : List (α × β)) :
    serializeIndexedEntries k' v' (l.map fun p => (f p.1, g p.2)) = serializeIndexedEntries k v l := by
  unfold serializeIndexedEntries
  rw [encEach_map (e := encPair k v)]
  intro a
  simp only [encPair, hf, hg]

theorem indexedOf_lifts (cfg : Cfg) (h : E.Lifts E' f) (t : Ty ι) :
    (indexedOf cfg E t).Lifts (indexedOf cfg E' t) (t.map f) := by
  have key := Ty.codec_lifts cfg h t
  have hc := fun t => Ty.codec_lifts cfg h t
  cases t
  case btreeMap k v =>
    simp only [indexedOf, h.cap]
    refine ⟨fun l hl => ?_, fun l => serializeIndexedEntries_map (hc k).enc (hc v).enc l⟩
    obtain ⟨h1, h2, h3, h4, h5, h6⟩ := hl
    refine ⟨?_, ?_, ?_, forall_mem_map (fun a ha => ⟨(hc k).valid _ ha.1, (hc v).valid _ ha.2⟩) h4,
      smallPairs_map (hc k).enc (hc v).enc h5, ?_⟩
    · simpa only [Ty.map, List.length_map] using h1
    · simpa only [Ty.map, List.length_map] using h2
    · simpa only [Ty.map, List.length_map] using h3
    · simp only [Ty.map]; rw [map_fst_map]; exact strictAsc_map (h.cmp k) h6
  case hashMap k v =>
    simp only [indexedOf, h.cap]
    refine ⟨fun l hl => ?_, fun l => serializeIndexedEntries_map (hc k).enc (hc v).enc l⟩
    obtain ⟨h1, h2, h3, h3', h4, h5, h6, h7⟩ := hl
    refine ⟨?_, ?_, ?_, ?_, forall_mem_map (fun a ha => ⟨(hc k).valid _ ha.1, (hc v).valid _ ha.2⟩) h4,
      smallPairs_map (hc k).enc (hc v).enc h5, ?_, ?_⟩
    · simpa only [Ty.map, List.length_map] using h1
    · simpa only [Ty.map, List.length_map] using h2
    · simpa only [Ty.map, List.length_map] using h3
    · simpa only [Ty.map, List.length_map] using h3'
    · simp only [Ty.map]; rw [map_fst_map]; exact distinctKeys_map (h.eq k) h6
    · simp only [Ty.map]
      rw [List.pairwise_map]
      simpa only [(hc k).enc] using h7
  case vec t | vector t =>
    all_goals
      simp only [indexedOf, h.cap]
      refine ⟨fun l hl => ?_, fun l => ?_⟩
      · obtain ⟨h1, h2, h3, h4⟩ := hl
        refine ⟨?_, ?_, forall_mem_map (hc t).valid h3, smallEach_map (hc t).enc h4⟩
        · simpa only [Ty.map, List.length_map] using h1
        · simpa only [Ty.map, List.length_map] using h2
      · simp only [indexedSeqC, serializeIndexedSeq, Ty.map]
        rw [encEach_map (hc t).enc]
  case btreeSet t =>
    simp only [indexedOf, h.cap]
    refine ⟨fun l hl => ?_, fun l => ?_⟩
    · obtain ⟨h1, h2, h3, h4, h5⟩ := hl
      refine ⟨?_, ?_, forall_mem_map (hc t).valid h3, smallEach_map (hc t).enc h4, strictAsc_map (h.cmp t) h5⟩
      · simpa only [Ty.map, List.length_map] using h1
      · simpa only [Ty.map, List.length_map] using h2
    · simp only [indexedBTreeSetC, serializeIndexedSet, Ty.map]
      rw [encEach_map (hc t).enc]
  case hashSet t =>
    simp only [indexedOf, h.cap]
    refine ⟨fun l hl => ?_, fun l => ?_⟩
    · obtain ⟨h1, h2, h3, h4, h5, h6⟩ := hl
      refine ⟨?_, ?_, forall_mem_map (hc t).valid h3, smallEach_map (hc t).enc h4, distinctKeys_map (h.eq t) h5, ?_⟩
      · simpa only [Ty.map, List.length_map] using h1
      · simpa only [Ty.map, List.length_map] using h2
      · simp only [Ty.map]
        rw [List.pairwise_map]
        simpa only [(hc t).enc] using h6
    · simp only [indexedHashSetC, serializeIndexedSet, Ty.map]
      rw [encEach_map (hc t).enc]
  all_goals exact key

/-- A value of a supported type with its type, its further values replaced. -/
def Dyn.map (f : (i : ι) → E.X i → E'.X i) (d : Dyn E) : Dyn E' := ⟨d.1, d.1.map f d.2⟩

theorem Dyn.proj_map [DecidableEq ι] (t : Ty ι) (d : Dyn E) :
    Dyn.proj (E := E') t (d.map f) = (Dyn.proj t d).map (t.map f) := by
  obtain ⟨s, a⟩ := d
  unfold Dyn.proj Dyn.map
  by_cases hs : s = t
  · subst hs; simp
  · simp [hs]

theorem dynC_lifts [DecidableEq ι] (t : Ty ι) {c : Codec (t.denote E.X)} {d : Codec (t.denote E'.X)}
    (h : c.Lifts d (t.map f)) : (dynC t c).Lifts (dynC t d) (Dyn.map f) where
  valid v hv := by
    obtain ⟨a, ha, hva⟩ := hv
    exact ⟨t.map f a, by rw [Dyn.proj_map, ha]; rfl, h.valid a hva⟩
  enc v := by
    simp only [dynC, Codec.embed, Dyn.proj_map]
    cases Dyn.proj t v with
    | none => rfl
    | some a => exact h.enc a

end

/-! ### Derived types -/

section
variable {F V W : Type} {o : F → FieldDecl V} {n : F → FieldDecl W} {g : V → W}

theorem serializeFields_map {eo : FieldDecl V → V → Res Bytes} {en : FieldDecl W → W → Res Bytes} {r : Nat} :
    ∀ (fs : List F) (_ : ∀ f ∈ fs, (n f).existsAt r = (o f).existsAt r)
      (_ : ∀ f ∈ fs, ∀ v, en (n f) (g v) = eo (o f) v) (vs : List V),
      serializeFields en r (fs.map n) (vs.map g) = serializeFields eo r (fs.map o) vs
  | [], _, _, _ => rfl
  | f :: fs, hx, he, vs => by
    have hx' := fun f' hf => hx f' (List.mem_cons_of_mem _ hf)
    have he' := fun f' hf => he f' (List.mem_cons_of_mem _ hf)
    rw [List.map_cons, List.map_cons, serializeFields.eq_def, serializeFields.eq_def eo]
    simp only [hx f (List.mem_cons_self ..)]
    by_cases hf : (o f).existsAt r
    · rw [if_pos hf, if_pos hf]
      cases vs with
      | nil => rfl
      | cons v vs => simp only [List.map_cons, he f (List.mem_cons_self ..), serializeFields_map fs hx' he' vs]
    · rw [if_neg hf, if_neg hf, serializeFields_map fs hx' he' vs]

theorem serializeIndexedFields_map {eo : FieldDecl V → V → Res Bytes} {en : FieldDecl W → W → Res Bytes} {r : Nat} :
    ∀ (fs : List F) (_ : ∀ f ∈ fs, (n f).existsAt r = (o f).existsAt r)
      (_ : ∀ f ∈ fs, ∀ v, en (n f) (g v) = eo (o f) v) (vs : List V) (pos : Nat),
      serializeIndexedFields en r (fs.map n) (vs.map g) pos = serializeIndexedFields eo r (fs.map o) vs pos
  | [], _, _, _, _ => rfl
  | f :: fs, hx, he, vs, pos => by
    have hx' := fun f' hf => hx f' (List.mem_cons_of_mem _ hf)
    have he' := fun f' hf => he f' (List.mem_cons_of_mem _ hf)
    rw [List.map_cons, List.map_cons, serializeIndexedFields.eq_def, serializeIndexedFields.eq_def eo]
    simp only [hx f (List.mem_cons_self ..)]
    by_cases hf : (o f).existsAt r
    · rw [if_pos hf, if_pos hf]
      cases vs with
      | nil => rfl
      | cons v vs => simp only [List.map_cons, he f (List.mem_cons_self ..), serializeIndexedFields_map fs hx' he' vs]
    · rw [if_neg hf, if_neg hf, serializeIndexedFields_map fs hx' he' vs]

theorem validFields_map {co : FieldDecl V → Codec V} {cn : FieldDecl W → Codec W} {r : Nat} :
    ∀ (fs : List F) (_ : ∀ f ∈ fs, (n f).existsAt r = (o f).existsAt r)
      (_ : ∀ f ∈ fs, ∀ v, (co (o f)).valid v → (cn (n f)).valid (g v)) (vs : List V),
      ValidFields co r (fs.map o) vs → ValidFields cn r (fs.map n) (vs.map g)
  | [], _, _, vs, h => by
    have h : vs = [] := h
    subst h
    rfl
  | f :: fs, hx, he, vs, h => by
    have hx' := fun f' hf => hx f' (List.mem_cons_of_mem _ hf)
    have he' := fun f' hf => he f' (List.mem_cons_of_mem _ hf)
    rw [List.map_cons, ValidFields.eq_def] at h ⊢
    simp only [hx f (List.mem_cons_self ..)] at h ⊢
    by_cases hf : (o f).existsAt r
    · rw [if_pos hf] at h ⊢
      cases vs with
      | nil => exact h
      | cons v vs =>
        exact ⟨he f (List.mem_cons_self ..) v h.1, validFields_map fs hx' he' vs h.2⟩
    · rw [if_neg hf] at h ⊢
      exact validFields_map fs hx' he' vs h

/-- Fields with the same options whose encodings lift. -/
structure FieldDecl.Lifts (o : FieldDecl V) (n : FieldDecl W) (g : V → W) : Prop where
  opts : n.opts = o.opts
  plain : o.plain.Lifts n.plain g
  fixedLe : o.fixedLe.Lifts n.fixedLe g
  bulk : o.bulk.Lifts n.bulk g
  indexed : o.indexed.Lifts n.indexed g

theorem FieldDecl.Lifts.existsAt {o : FieldDecl V} {n : FieldDecl W} (h : o.Lifts n g) (r : Nat) :
    n.existsAt r = o.existsAt r := by
  unfold FieldDecl.existsAt
  rw [h.opts]

theorem FieldDecl.Lifts.legacyC {o : FieldDecl V} {n : FieldDecl W} (h : o.Lifts n g) :
    o.legacyC.Lifts n.legacyC g := by
  unfold FieldDecl.legacyC
  rw [h.opts]
  split
  · exact h.fixedLe
  · split
    · exact h.bulk
    · exact h.plain

theorem FieldDecl.Lifts.wire {o : FieldDecl V} {n : FieldDecl W} (h : o.Lifts n g) (e : Entry) :
    (o.wire e).Lifts (n.wire e) g := by
  unfold FieldDecl.wire FieldDecl.optimisedC FieldDecl.isIndexed
  rw [h.opts]
  split
  · split
    · exact h.indexed
    · exact h.plain
  · exact h.legacyC

theorem FieldDecl.Lifts.variantWire {o : FieldDecl V} {n : FieldDecl W} (h : o.Lifts n g) (e : Entry) :
    (o.variantWire e).Lifts (n.variantWire e) g := by
  unfold FieldDecl.variantWire
  split
  · exact h.plain
  · exact h.legacyC

theorem structC_lifts (cfg : Cfg) (h : List Entry) (fs : List F) (hf : ∀ f ∈ fs, (o f).Lifts (n f) g) :
    (structC cfg h (fs.map o)).Lifts (structC cfg h (fs.map n)) (List.map g) where
  valid vs hv := validFields_map fs (fun f m => (hf f m).existsAt _) (fun f m => ((hf f m).wire _).valid) vs hv
  enc vs := by
    have e1 : aliveCount (fs.map n) (lastEntry h).revision = aliveCount (fs.map o) (lastEntry h).revision := by
      unfold aliveCount
      rw [List.filter_map, List.filter_map, List.length_map, List.length_map]
      congr 1
      exact List.filter_congr fun f m => (hf f m).existsAt _
    simp only [structC, serializeStructBody]
    rw [e1, serializeFields_map (eo := fun f v => (f.wire (lastEntry h)).enc v) fs (fun f m => (hf f m).existsAt _)
        (fun f m => ((hf f m).wire _).enc) vs,
      serializeIndexedFields_map (eo := fun f v => (f.wire (lastEntry h)).enc v) fs (fun f m => (hf f m).existsAt _)
        (fun f m => ((hf f m).wire _).enc) vs]

end

section
variable {F U V W : Type} {o : F → FieldDecl V} {n : F → FieldDecl W} {g : V → W} {vo : U → VariantDecl V}
  {vn : U → VariantDecl W} {fields : U → List F}

/-- Variants with the same name and options whose fields lift. -/
structure VariantLifts (o : F → FieldDecl V) (n : F → FieldDecl W) (g : V → W) (fs : List F) (v : VariantDecl V)
    (w : VariantDecl W) : Prop where
  ident : w.ident = v.ident
  opts : w.opts = v.opts
  old : v.fields = fs.map o
  new : w.fields = fs.map n
  field : ∀ f ∈ fs, (o f).Lifts (n f) g

theorem variantArms_map (r : Nat) (us : List U) (hu : ∀ u ∈ us, VariantLifts o n g (fields u) (vo u) (vn u)) :
    ∃ arms : List (Nat × U), (∀ a ∈ arms, a.2 ∈ us) ∧
      variantArms (us.map vo) r = arms.map (fun a => (a.1, vo a.2)) ∧
      variantArms (us.map vn) r = arms.map (fun a => (a.1, vn a.2)) := by
  have es : (us.map vn).map VariantDecl.sig = (us.map vo).map VariantDecl.sig := by
    rw [List.map_map, List.map_map]
    refine List.map_congr_left fun u m => ?_
    have h := hu u m
    simp only [Function.comp, VariantDecl.sig, h.ident, h.opts, h.old, h.new, List.map_map]
    congr 1
    exact List.map_congr_left fun f mf => (h.field f mf).opts
  have ed : discsAt (us.map vn) r = discsAt (us.map vo) r := by
    unfold discsAt
    rw [es]
  unfold variantArms
  rw [ed]
  generalize discsAt (us.map vo) r = D
  clear es ed
  induction us with
  | nil => exact ⟨[], nofun, rfl, rfl⟩
  | cons u us ih =>
    obtain ⟨arms, h1, h2, h3⟩ := ih fun v m => hu v (List.mem_cons_of_mem _ m)
    have h := hu u (List.mem_cons_self ..)
    have hx : (vn u).existsAt r = (vo u).existsAt r := by
      unfold VariantDecl.existsAt
      rw [h.opts]
    have h1' : ∀ a ∈ arms, a.2 ∈ u :: us := fun a m => List.mem_cons_of_mem _ (h1 a m)
    by_cases ha : (vo u).existsAt r = true
    · rw [List.map_cons, List.map_cons, List.filter_cons_of_pos (p := fun x : VariantDecl V => x.existsAt r) ha,
        List.filter_cons_of_pos (p := fun x : VariantDecl W => x.existsAt r) (by rw [hx]; exact ha),
        List.filterMap_cons, List.filterMap_cons, h.ident]
      cases hl : D.lookup (vo u).ident with
      | none => exact ⟨arms, h1', by simpa using h2, by simpa using h3⟩
      | some d =>
        refine ⟨(d, u) :: arms, fun a m => ?_, by simpa using h2, by simpa using h3⟩
        rcases List.mem_cons.1 m with rfl | m
        · exact List.mem_cons_self ..
        · exact h1' a m
    · rw [List.map_cons, List.map_cons, List.filter_cons_of_neg (p := fun x : VariantDecl V => x.existsAt r) ha,
        List.filter_cons_of_neg (p := fun x : VariantDecl W => x.existsAt r) (by rw [hx]; exact ha)]
      exact ⟨arms, h1', h2, h3⟩

theorem enumC_lifts (cfg : Cfg) (h : List Entry) (us : List U)
    (hu : ∀ u ∈ us, VariantLifts o n g (fields u) (vo u) (vn u)) :
    (enumC cfg h (us.map vo)).Lifts (enumC cfg h (us.map vn)) (fun x => ⟨x.variant, x.fields.map g⟩) := by
  obtain ⟨arms, hm, ho, hn⟩ := variantArms_map (lastEntry h).revision us hu
  refine ⟨fun x hv => ?_, fun x => ?_⟩
  · obtain ⟨d, v, hmem, hi, hvf, hs⟩ := hv
    rw [ho] at hmem
    obtain ⟨a, ha, hae⟩ := List.mem_map.1 hmem
    cases hae
    have hl := hu a.2 (hm a ha)
    refine ⟨a.1, vn a.2, ?_, hl.ident.trans hi, ?_, fun hopt => ?_⟩
    · rw [hn]; exact List.mem_map.2 ⟨a, ha, rfl⟩
    · rw [hl.old] at hvf
      rw [hl.new]
      exact validFields_map _ (fun f m => (hl.field f m).existsAt _) (fun f m => ((hl.field f m).variantWire _).valid) _ hvf
    · have hs := hs hopt
      rw [hl.opts]
      rw [hl.old] at hs
      rw [hl.new]
      cases hsz : (vo a.2).opts.size.getD .inline with
      | inline =>
        rw [hsz] at hs
        have hs : x.fields = [] := hs
        show x.fields.map g = []
        rw [hs]; rfl
      | fixed k =>
        rw [hsz] at hs
        intro b hb
        rw [serializeFields_map (eo := fun f w => f.plain.enc w) _ (fun f m => (hl.field f m).existsAt _)
          (fun f m => (hl.field f m).plain.enc)] at hb
        exact hs b hb
      | varlen => trivial
  · simp only [enumC, serializeEnumBody]
    rw [ho, hn, List.find?_map, List.find?_map]
    have ef : arms.find? ((fun a : Nat × VariantDecl W => a.2.ident == x.variant) ∘ fun a => (a.1, vn a.2)) =
        arms.find? ((fun a : Nat × VariantDecl V => a.2.ident == x.variant) ∘ fun a => (a.1, vo a.2)) := by
      clear ho hn
      induction arms with
      | nil => rfl
      | cons a arms ih =>
        rw [List.find?_cons, List.find?_cons, ih fun b m => hm b (List.mem_cons_of_mem _ m)]
        simp only [Function.comp, (hu a.2 (hm a (List.mem_cons_self ..))).ident]
    rw [ef]
    cases hfd : arms.find? ((fun a : Nat × VariantDecl V => a.2.ident == x.variant) ∘ fun a => (a.1, vo a.2)) with
    | none => rfl
    | some a =>
      have hl := hu a.2 (hm a (List.mem_of_find?_eq_some hfd))
      simp only [Option.map_some]
      rw [hl.opts, hl.new, hl.old, serializeFields_map (eo := fun f w => (f.variantWire (lastEntry h)).enc w) _
        (fun f m => (hl.field f m).existsAt _) (fun f m => ((hl.field f m).variantWire _).enc)]

end

/-! ### Programs -/

section
variable {ι : Type} {K : ι → Kind} [DecidableEq ι] {cfg : Cfg} {I : Impls K} {n m : Nat}
  {c : (i : ι) → Codec (Values K n i)} {c' : (i : ι) → Codec (Values K m i)} {l : (i : ι) → Values K n i → Values K m i}

theorem Field.decl_lifts (h : (I.env n c).Lifts (I.env m c') l) (f : Field K) :
    (f.decl cfg I n c).Lifts (f.decl cfg I m c') (Dyn.map (E := I.env n c) (E' := I.env m c') l) :=
  ⟨rfl, dynC_lifts _ (Ty.codec_lifts cfg h _), dynC_lifts _ (fixedOf_lifts cfg h _),
    dynC_lifts _ (bulkOf_lifts cfg h _), dynC_lifts _ (indexedOf_lifts cfg h _)⟩

theorem Body.lifts (h : (I.env n c).Lifts (I.env m c') l) (hist : List Entry) : {k : Kind} → (body : Body K k) →
    (body.codec cfg I n c hist).Lifts (body.codec cfg I m c' hist)
      (k.map fun d : DynAt K n => (⟨d.1, d.1.map l d.2⟩ : DynAt K m))
  | _, .struct fs => structC_lifts cfg hist fs fun f _ => f.decl_lifts h
  | _, .enum vs => enumC_lifts (fields := Variant.fields) (o := (·.decl cfg I n c)) (n := (·.decl cfg I m c'))
      cfg hist vs fun _ _ => ⟨rfl, rfl, rfl, rfl, fun f _ => f.decl_lifts h⟩
  | _, .foreign x => .refl x.codec

end

theorem Program.lifts {ι : Type} [DecidableEq ι] (cfg : Cfg) (P : Program ι) (I : Impls P.kind) (hI : I.DepthFree) :
    ∀ (n m : Nat) (h : n ≤ m) (i : ι),
      (P.codec cfg I n i).Lifts (P.codec cfg I m i) (Values.lift P.kind n m h i)
  | 0, _, _, _ => ⟨fun v => Empty.elim v, fun v => Empty.elim v⟩
  | _ + 1, 0, h, _ => absurd h (Nat.not_succ_le_zero _)
  | n + 1, m + 1, h, i => by
    have hnm := Nat.le_of_succ_le_succ h
    exact Body.lifts (l := Values.lift P.kind n m hnm)
      ⟨Program.lifts cfg P I hI n m hnm, rfl, hI.cmp n m hnm, hI.eq n m hnm⟩ (P.history i) (P.body i)

end Revision
