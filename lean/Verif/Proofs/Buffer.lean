import Verif.Spec.Buffer
import Verif.Proofs.WireField
import Verif.Proofs.Copy

/-! Counting the bytes serialisers buffer. -/

namespace Revision

/-- Without its counter `m` is `r`, and it counts at most `L` for each unit of its result. -/
structure Bf.Costs (size : α → Nat) (L : Nat) (m : Bf α) (r : Res α) : Prop where
  erase : m.erase = r
  le : ∀ k a, m = .ok (k, a) → k ≤ L * size a

namespace Bf.Costs

variable {size : α → Nat} {size' : β → Nat} {size'' : γ → Nat} {L L' : Nat} {m : Bf α} {r : Res α}

theorem weaken (h : Costs size L m r) (hL : L ≤ L') : Costs size L' m r :=
  ⟨h.erase, fun k a e => Nat.le_trans (h.le k a e) (Nat.mul_le_mul_right _ hL)⟩

theorem of (r : Res α) : Costs size L (Bf.of r) r := by
  cases r with
  | ok a => exact ⟨rfl, fun k b e => by cases e; exact Nat.zero_le _⟩
  | err e => exact ⟨rfl, fun k b e => by cases e⟩
  | panic => exact ⟨rfl, fun k b e => by cases e⟩

theorem pure (a : α) : Costs size L (Pure.pure a : Bf α) (Pure.pure a : Res α) :=
  ⟨rfl, fun k b e => by cases e; exact Nat.zero_le _⟩

theorem bindOf {w : α → Res β} (h : Costs size L m r) (hs : ∀ a b, w a = .ok b → size a ≤ size' b) :
    Costs size' L (m >>= fun a => Bf.of (w a)) (r >>= w) := by
  obtain ⟨rfl, hl⟩ := h
  rcases m with ⟨k, a⟩ | e | _
  · have hk := hl k a rfl
    have hs := hs a
    show Costs size' L (match Bf.of (w a) with | .ok (l, b) => (.ok (k + l, b) : Bf β) | .err e => .err e | .panic => .panic) (w a)
    generalize w a = x at *
    rcases x with b | e | _
    · refine ⟨rfl, fun k' b' e => ?_⟩
      cases e
      exact Nat.le_trans hk (Nat.mul_le_mul_left _ (hs b rfl))
    · exact ⟨rfl, fun _ _ e => by cases e⟩
    · exact ⟨rfl, fun _ _ e => by cases e⟩
  · exact ⟨rfl, fun _ _ e => by cases e⟩
  · exact ⟨rfl, fun _ _ e => by cases e⟩

theorem map {g : α → β} (h : Costs size L m r) (hs : ∀ a, size a ≤ size' (g a)) :
    Costs size' L (m >>= fun a => Pure.pure (g a)) (r >>= fun a => Pure.pure (g a)) :=
  h.bindOf (w := fun a => .ok (g a)) fun a b e => by cases e; exact hs a

/-- Two in sequence. -/
theorem both {m' : α → Bf β} {r' : α → Res β} {g : α → β → γ} (h : Costs size L m r) (h' : ∀ a, Costs size' L (m' a) (r' a))
    (hs : ∀ a b, size a + size' b ≤ size'' (g a b)) :
    Costs size'' L (m >>= fun a => m' a >>= fun b => Pure.pure (g a b)) (r >>= fun a => r' a >>= fun b => Pure.pure (g a b)) := by
  obtain ⟨rfl, hl⟩ := h
  rcases m with ⟨k, a⟩ | e | _
  · have hk := hl k a rfl
    obtain ⟨e', hl'⟩ := h' a
    have er : ((Bf.erase (.ok (k, a) : Bf α)) >>= fun a => r' a >>= fun b => Pure.pure (g a b)) =
      ((m' a).erase >>= fun b => Pure.pure (g a b)) := by rw [e']; rfl
    rw [er]
    show Costs size'' L (match (m' a >>= fun b => Pure.pure (g a b)) with
      | .ok (l, b) => (.ok (k + l, b) : Bf γ) | .err e => .err e | .panic => .panic) _
    generalize m' a = x at *
    rcases x with ⟨l, b⟩ | e | _
    · refine ⟨rfl, fun k' c e => ?_⟩
      have hb := hl' l b rfl
      cases e
      have := Nat.mul_le_mul_left L (hs a b)
      rw [Nat.mul_add] at this
      omega
    · exact ⟨rfl, fun _ _ e => by cases e⟩
    · exact ⟨rfl, fun _ _ e => by cases e⟩
  · exact ⟨rfl, fun _ _ e => by cases e⟩
  · exact ⟨rfl, fun _ _ e => by cases e⟩

theorem buffer {m : Bf Bytes} {r : Res Bytes} (h : Costs List.length L m r) : Costs List.length (L + 1) (Bf.buffer m) r := by
  obtain ⟨rfl, hl⟩ := h
  rcases m with ⟨k, a⟩ | e | _
  · refine ⟨rfl, fun k' b e => ?_⟩
    have := hl k a rfl
    cases e
    rw [Nat.add_mul, Nat.one_mul]
    omega
  · exact ⟨rfl, fun _ _ e => by cases e⟩
  · exact ⟨rfl, fun _ _ e => by cases e⟩

theorem list {f : α → Bf Bytes} {g : α → Res Bytes} (h : ∀ a, Costs List.length L (f a) (g a)) :
    ∀ l, Costs List.length L (Bf.list f l) (encList g l)
  | [] => pure _
  | a :: l => (h a).both (fun _ => list h l) fun a b => by rw [List.length_append]; omega

theorem each {f : α → Bf β} {g : α → Res β} {size : β → Nat} (h : ∀ a, Costs size L (f a) (g a)) :
    ∀ l, Costs (fun bs => (bs.map size).sum) L (Bf.each f l) (encEach g l)
  | [] => pure _
  | a :: l => (h a).both (fun _ => each h l) fun a b => by simp

theorem seq {f : α → Bf Bytes} {g : α → Res Bytes} (cfg : Cfg) (h : ∀ a, Costs List.length L (f a) (g a)) (l : List α) :
    Costs List.length L (Bf.seq cfg f l) (do let b ← encList g l; Pure.pure (encLen cfg l.length ++ b)) :=
  (list h l).map fun a => by rw [List.length_append]; omega

theorem pair {f : α → Bf Bytes} {g : α → Res Bytes} {f' : β → Bf Bytes} {g' : β → Res Bytes}
    (h : ∀ a, Costs List.length L (f a) (g a)) (h' : ∀ a, Costs List.length L (f' a) (g' a)) (e : α × β) :
    Costs List.length L (Bf.both f f' e) (do let x ← g e.1; let y ← g' e.2; Pure.pure (x ++ y)) :=
  (h _).both (fun _ => h' _) fun a b => by rw [List.length_append]; omega

end Bf.Costs

theorem writeSeqBodies_sum {bs : List Bytes} {b : Bytes} (h : writeSeqBodies bs = .ok b) : (bs.map List.length).sum ≤ b.length := by
  have := writeSeqBodies_flatten h
  rwa [List.length_flatten] at this

theorem writeMapPairs_sum {ps : List (Bytes × Bytes)} {b : Bytes} (h : writeMapPairs ps = .ok b) :
    (ps.map fun p => p.1.length + p.2.length).sum ≤ b.length := by
  have hk : ∀ l : List (Bytes × Bytes), (l.map fun p => p.1.length + p.2.length).sum =
      ((l.map Prod.fst).map List.length).sum + ((l.map Prod.snd).map List.length).sum := fun l => by
    induction l with
    | nil => rfl
    | cons p l ih => simp only [List.map_cons, List.sum_cons, ih]; omega
  have hm : ∀ l : List (Bytes × Bytes), (l.map fun p => p.1.length + p.2.length).sum = (l.map fun p => p.1 ++ p.2).flatten.length :=
    fun l => by
    induction l with
    | nil => rfl
    | cons p l ih => simp only [List.map_cons, List.sum_cons, ih, List.flatten_cons, List.length_append]
  unfold writeMapPairs at h
  by_cases hn : ps.length < offsetTableMinLen
  · rw [if_pos hn] at h
    cases h
    rw [hm]
    simp only [List.length_cons, List.length_append]
    omega
  · rw [if_neg hn] at h
    obtain ⟨⟨os, n, m⟩, _, h2⟩ := Res.bind_eq_ok.1 h
    cases h2
    rw [hk]
    simp only [List.length_cons, List.length_append, List.length_flatten]
    omega

theorem List.Perm.sum_map {l l' : List α} (h : l.Perm l') (f : α → Nat) : (l.map f).sum = (l'.map f).sum := by
  induction h with
  | nil => rfl
  | cons a _ ih => simp only [List.map_cons, List.sum_cons, ih]
  | swap a b l => simp only [List.map_cons, List.sum_cons]; omega
  | trans _ _ h1 h2 => exact h1.trans h2

namespace Bf.Costs

variable {α β : Type} {L : Nat}

theorem indexedSeq {f : α → Bf Bytes} {g : α → Res Bytes} (h : ∀ a, Costs List.length L (f a) (g a)) (l : List α) :
    Costs List.length (L + 1) (Bf.indexedSeq f l) (serializeIndexedSeq g l) :=
  (each (f := fun a => (f a).buffer) (g := g) (fun a => (h a).buffer) l).bindOf fun _ _ e => writeSeqBodies_sum e

theorem indexedSet {f : α → Bf Bytes} {g : α → Res Bytes} (h : ∀ a, Costs List.length L (f a) (g a)) (l : List α) :
    Costs List.length (L + 1) (Bf.indexedSet f l) (serializeIndexedSet g l) :=
  (each (f := fun a => (f a).buffer) (g := g) (fun a => (h a).buffer) l).bindOf
      (w := fun bs => writeSeqBodies (bs.mergeSort fun a b => (cmpBytes a b).isLE)) fun bs _ e => by
    have := writeSeqBodies_sum e
    rwa [List.Perm.sum_map (List.mergeSort_perm _ _)] at this

theorem indexedEntries {f : α → Bf Bytes} {g : α → Res Bytes} {f' : β → Bf Bytes} {g' : β → Res Bytes}
    (h : ∀ a, Costs List.length L (f a) (g a)) (h' : ∀ a, Costs List.length L (f' a) (g' a)) (l : List (α × β)) :
    Costs List.length (L + 1) (Bf.indexedEntries f f' l) (serializeIndexedEntries g g' l) :=
  (each (size := fun p : Bytes × Bytes => p.1.length + p.2.length) (f := Bf.pair f f') (g := encPair g g')
    (fun e => (h _).buffer.both (fun _ => (h' _).buffer) fun a b => Nat.le_refl _) l).bindOf
      (w := fun ps => writeMapPairs (ps.mergeSort fun a b => (cmpBytes a.1 b.1).isLE)) fun ps _ e => by
    have := writeMapPairs_sum e
    rwa [List.Perm.sum_map (List.mergeSort_perm _ _)] at this

end Bf.Costs

section
variable {ι : Type} {L : Nat}

theorem le_append (a b : Bytes) : b.length ≤ (a ++ b).length := by rw [List.length_append]; omega

theorem Ty.buffered_costs (cfg : Cfg) (E : Env ι) (x : (i : ι) → E.X i → Bf Bytes) :
    ∀ t : Ty ι, (∀ i ∈ t.refs, ∀ v, Bf.Costs List.length L (x i v) ((E.extC i).enc v)) →
      ∀ v, Bf.Costs List.length L (t.buffered cfg E x v) ((t.codec cfg E).enc v)
  | .option t, h, v => by
    have ih := buffered_costs cfg E x t h
    cases v with
    | none => exact .pure _
    | some a => exact (ih a).map fun b => le_append _ b
  | .result t e, h, v => by
    cases v with
    | ok a => exact (buffered_costs cfg E x t (fun i hi => h i (List.mem_append_left _ hi)) a).map fun b => le_append _ b
    | error a => exact (buffered_costs cfg E x e (fun i hi => h i (List.mem_append_right _ hi)) a).map fun b => le_append _ b
  | .bound t, h, v => by
    have ih := buffered_costs cfg E x t h
    cases v with
    | unbounded => exact .pure _
    | included a => exact (ih a).map fun b => le_append _ b
    | excluded a => exact (ih a).map fun b => le_append _ b
  | .wrap t, h, v => buffered_costs cfg E x t h v
  | .pair s t, h, v => .pair (buffered_costs cfg E x s fun i hi => h i (List.mem_append_left _ hi))
      (buffered_costs cfg E x t fun i hi => h i (List.mem_append_right _ hi)) v
  | .array _ t, h, v => .list (buffered_costs cfg E x t h) v
  | .vec t, h, v => bufferedVec_costs cfg E t (buffered_costs cfg E x t h) v
  | .btreeMap k w, h, v => .seq cfg (.pair (buffered_costs cfg E x k fun i hi => h i (List.mem_append_left _ hi))
      (buffered_costs cfg E x w fun i hi => h i (List.mem_append_right _ hi))) v
  | .btreeSet k, h, v => .seq cfg (buffered_costs cfg E x k h) v
  | .hashMap k w, h, v => .seq cfg (.pair (buffered_costs cfg E x k fun i hi => h i (List.mem_append_left _ hi))
      (buffered_costs cfg E x w fun i hi => h i (List.mem_append_right _ hi))) v
  | .hashSet k, h, v => .seq cfg (buffered_costs cfg E x k h) v
  | .binaryHeap t, h, v => .seq cfg (buffered_costs cfg E x t h) v
  | .vector t, h, v => .seq cfg (buffered_costs cfg E x t h) v
  | .ext i, h, v => h i List.mem_cons_self v
  | .unit, _, v => .of ((Ty.codec cfg E .unit).enc v)
  | .bool, _, v => .of ((Ty.codec cfg E .bool).enc v)
  | .int k, _, v => .of ((intC cfg k).enc v)
  | .float f, _, v => .of ((floatC f.bytes).enc v)
  | .char, _, v => .of ((Ty.codec cfg E .char).enc v)
  | .string, _, v => .of ((Ty.codec cfg E .string).enc v)
  | .path, _, v => .of ((Ty.codec cfg E .path).enc v)
  | .bytes, _, v => .of ((Ty.codec cfg E .bytes).enc v)
  | .uuid, _, v => .of ((Ty.codec cfg E .uuid).enc v)
  | .duration, _, v => .of ((durationC cfg).enc v)
  | .systemTime, _, v => .of ((systemTimeC cfg).enc v)
  | .notNan f, _, v => .of ((notNanC f.bytes).enc v)
where
  bufferedVec_costs (cfg : Cfg) (E : Env ι) (t : Ty ι) {c : Codec (t.denote E.X)} {enc : t.denote E.X → Bf Bytes}
      (h : ∀ v, Bf.Costs List.length L (enc v) (c.enc v)) (l : List (t.denote E.X)) :
      Bf.Costs List.length L (bufferedVec cfg E t c enc l) ((vecOf cfg E t c).enc l) := by
    cases t with
    | bool | int | float | uuid => exact .of _
    | _ => exact .seq cfg h l

theorem bufferedFixed_costs (cfg : Cfg) (E : Env ι) (x : (i : ι) → E.X i → Bf Bytes) (t : Ty ι)
    (h : ∀ i ∈ t.refs, ∀ v, Bf.Costs List.length L (x i v) ((E.extC i).enc v)) (v : t.denote E.X) :
    Bf.Costs List.length L (bufferedFixed cfg E x t v) ((fixedOf cfg E t).enc v) := by
  cases t with
  | int => exact .of _
  | _ => exact Ty.buffered_costs cfg E x _ h v

theorem bufferedBulk_costs (cfg : Cfg) (E : Env ι) (x : (i : ι) → E.X i → Bf Bytes) (t : Ty ι)
    (h : ∀ i ∈ t.refs, ∀ v, Bf.Costs List.length L (x i v) ((E.extC i).enc v)) (v : t.denote E.X) :
    Bf.Costs List.length L (bufferedBulk cfg E x t v) ((bulkOf cfg E t).enc v) := by
  cases t with
  | vec t => exact Ty.buffered_costs.bufferedVec_costs _ E t (Ty.buffered_costs cfg E x t h) v
  | _ => exact Ty.buffered_costs cfg E x _ h v

theorem bufferedIndexed_costs (cfg : Cfg) (E : Env ι) (x : (i : ι) → E.X i → Bf Bytes) (t : Ty ι)
    (h : ∀ i ∈ t.refs, ∀ v, Bf.Costs List.length L (x i v) ((E.extC i).enc v)) (v : t.denote E.X) :
    Bf.Costs List.length (L + 1) (bufferedIndexed cfg E x t v) ((indexedOf cfg E t).enc v) := by
  cases t with
  | btreeMap k w =>
    exact .indexedEntries (Ty.buffered_costs cfg E x k fun i hi => h i (List.mem_append_left _ hi))
        (Ty.buffered_costs cfg E x w fun i hi => h i (List.mem_append_right _ hi)) v
  | hashMap k w =>
    exact .indexedEntries (Ty.buffered_costs cfg E x k fun i hi => h i (List.mem_append_left _ hi))
        (Ty.buffered_costs cfg E x w fun i hi => h i (List.mem_append_right _ hi)) v
  | vec t => exact .indexedSeq (Ty.buffered_costs cfg E x t h) v
  | vector t => exact .indexedSeq (Ty.buffered_costs cfg E x t h) v
  | btreeSet t => exact .indexedSet (Ty.buffered_costs cfg E x t h) v
  | hashSet t => exact .indexedSet (Ty.buffered_costs cfg E x t h) v
  | _ => exact (Ty.buffered_costs cfg E x _ h v).weaken (Nat.le_succ _)

end

/-! ### Derived types -/

section
variable {V : Type} {L : Nat}

theorem bufferedFields_costs {enc : BufferedField V → V → Bf Bytes} {enc' : FieldDecl V → V → Res Bytes} {r : Nat} :
    ∀ (fs : List (BufferedField V)) (this : List V),
      (∀ f ∈ fs, f.decl.existsAt r = true → ∀ v, Bf.Costs List.length L (enc f v) (enc' f.decl v)) →
      Bf.Costs List.length L (bufferedFields enc r fs this) (serializeFields enc' r (fs.map (·.decl)) this)
  | [], _, _ => .pure _
  | f :: fs, this, h => by
    have ih := fun vs => bufferedFields_costs fs vs fun g hg => h g (List.mem_cons_of_mem _ hg)
    simp only [bufferedFields, serializeFields, List.map_cons]
    by_cases hf : f.decl.existsAt r = true
    · simp only [hf, if_true]
      cases this with
      | nil => exact .of _
      | cons v vs => exact (h f List.mem_cons_self hf v).both (fun _ => ih vs) fun a b => by rw [List.length_append]; omega
    · simp only [hf]
      exact ih this

theorem bufferedIndexedFields_costs {enc : BufferedField V → V → Bf Bytes} {enc' : FieldDecl V → V → Res Bytes} {r : Nat} :
    ∀ (fs : List (BufferedField V)) (this : List V) (pos : Nat),
      (∀ f ∈ fs, f.decl.existsAt r = true → ∀ v, Bf.Costs List.length L (enc f v) (enc' f.decl v)) →
      Bf.Costs (fun p => p.2.length) L (bufferedIndexedFields enc r fs this pos)
        (serializeIndexedFields enc' r (fs.map (·.decl)) this pos)
  | [], _, _, _ => .pure _
  | f :: fs, this, pos, h => by
    have ih := fun vs pos => bufferedIndexedFields_costs fs vs pos fun g hg => h g (List.mem_cons_of_mem _ hg)
    simp only [bufferedIndexedFields, serializeIndexedFields, List.map_cons]
    by_cases hf : f.decl.existsAt r = true
    · simp only [hf, if_true]
      cases this with
      | nil => exact .of _
      | cons v vs =>
        refine (h f List.mem_cons_self hf v).both (g := fun b (p : Bytes × Bytes) => (leBytes 4 pos ++ p.1, b ++ p.2))
          (fun b => ih vs (pos + b.length)) fun a b => ?_
        simp only [List.length_append]
        omega
    · simp only [hf]
      exact ih this pos

theorem lengthPrefixed_le {b s : Bytes} (h : lengthPrefixed b = .ok s) : b.length ≤ s.length := by
  unfold lengthPrefixed at h
  split at h
  · cases h; exact le_append _ _
  · cases h

theorem varlen_le {id : Nat} {b s : Bytes} (h : serializeSized id .varlen b = .ok s) : b.length ≤ s.length := by
  obtain ⟨p, hp, e⟩ := Res.bind_eq_ok.1 h
  cases e
  exact Nat.le_succ_of_le (lengthPrefixed_le hp)

theorem bufferedStructBody_costs {e : Entry} {fs : List (BufferedField V)} (this : List V)
    (h : ∀ f ∈ fs, f.decl.existsAt e.revision = true → ∀ v, Bf.Costs List.length L (f.wire e v) ((f.decl.wire e).enc v)) :
    Bf.Costs List.length ((if e.optimised then 1 else 0) + L) (bufferedStructBody e fs this)
      (serializeStructBody e (fs.map (·.decl)) this) := by
  unfold bufferedStructBody serializeStructBody
  simp only
  by_cases ho : e.optimised = true
  · simp only [ho, if_true]
    by_cases hi : e.indexedStruct = true
    · simp only [hi, if_true]
      have h1 := (bufferedIndexedFields_costs (enc' := fun f v => (f.wire e).enc v) fs this
        (4 * aliveCount (fs.map (·.decl)) e.revision) h).map (g := fun p => p.1 ++ p.2) (size' := List.length)
        fun p => le_append p.1 p.2
      have h2 := h1.buffer.bindOf (w := lengthPrefixed) fun _ _ e => lengthPrefixed_le e
      rw [Nat.add_comm]
      refine ⟨h2.erase.trans ?_, h2.le⟩
      cases serializeIndexedFields (fun f v => (f.wire e).enc v) e.revision (fs.map (·.decl)) this
        (4 * aliveCount (fs.map (·.decl)) e.revision) <;> rfl
    · simp only [hi]
      rw [Nat.add_comm]
      exact (bufferedFields_costs (enc' := fun f v => (f.wire e).enc v) fs this h).buffer.bindOf fun _ _ e => lengthPrefixed_le e
  · simp only [ho]
    exact (bufferedFields_costs (enc' := fun f v => (f.wire e).enc v) fs this h).weaken (by omega)

theorem bufferedArms_map (vs : List (BufferedVariant V)) (r : Nat) :
    variantArms (vs.map (·.decl)) r = (bufferedArms vs r).map fun a => (a.1, a.2.decl) := by
  unfold variantArms bufferedArms
  generalize discsAt (vs.map (·.decl)) r = D
  induction vs with
  | nil => rfl
  | cons v vs ih =>
    simp only [List.map_cons, List.filter_cons]
    split
    · simp only [List.filterMap_cons, ih]
      cases D.lookup v.decl.ident <;> rfl
    · exact ih

theorem bufferedArms_mem {vs : List (BufferedVariant V)} {r : Nat} {a : Nat × BufferedVariant V} (h : a ∈ bufferedArms vs r) :
    a.2 ∈ vs ∧ a.2.decl.existsAt r = true := by
  unfold bufferedArms at h
  obtain ⟨v, hv, e⟩ := List.mem_filterMap.1 h
  cases hd : (discsAt (vs.map (·.decl)) r).lookup v.decl.ident with
  | none => rw [hd] at e; cases e
  | some d =>
    rw [hd] at e
    cases e
    exact List.mem_filter.1 hv

theorem bufferedEnumBody_costs (cfg : Cfg) {e : Entry} {vs : List (BufferedVariant V)} (x : EnumVal V)
    (hd : ∀ v ∈ vs, v.decl.fields = v.fields.map (·.decl))
    (h : ∀ v ∈ vs, v.decl.existsAt e.revision = true → ∀ f ∈ v.fields, f.decl.existsAt e.revision = true →
      ∀ w, Bf.Costs List.length L (f.variantWire e w) ((f.decl.variantWire e).enc w)) :
    Bf.Costs List.length ((if e.optimised then 1 else 0) + L) (bufferedEnumBody cfg e vs x)
      (serializeEnumBody cfg e (vs.map (·.decl)) x) := by
  unfold bufferedEnumBody serializeEnumBody
  rw [bufferedArms_map, List.find?_map]
  have hc : ((fun a : Nat × VariantDecl V => a.2.ident == x.variant) ∘ fun a : Nat × BufferedVariant V => (a.1, a.2.decl)) =
    fun a => a.2.decl.ident == x.variant := rfl
  rw [hc]
  cases ha : (bufferedArms vs e.revision).find? (fun a => a.2.decl.ident == x.variant) with
  | none => exact .of _
  | some a =>
    obtain ⟨id, v⟩ := a
    obtain ⟨hv, hl⟩ := bufferedArms_mem (List.mem_of_find?_eq_some ha)
    have hb := bufferedFields_costs (enc' := fun f w => (f.variantWire e).enc w) v.fields x.fields (h v hv hl)
    rw [← hd v hv] at hb
    simp only [Option.map_some]
    by_cases ho : e.optimised = true
    · simp only [ho, if_true]
      rw [Nat.add_comm]
      cases hs : v.decl.opts.size.getD .inline with
      | inline =>
        have h1 : Bf.Costs (fun _ => 0) (L + 1) (Bf.of (bufferedFields (fun f => f.variantWire e) e.revision v.fields x.fields).erase) _ := .of _
        exact hb.erase ▸ h1.bindOf (size' := List.length) (w := serializeSized id .inline) fun _ _ _ => Nat.zero_le _
      | fixed n => exact hb.buffer.bindOf fun b s e => by cases e; exact Nat.le_succ _
      | varlen => exact hb.buffer.bindOf fun b s e => varlen_le e
    · simp only [ho]
      exact (hb.map fun b => le_append _ b).weaken (by omega)

end

/-! ### Programs -/

section
variable {ι : Type} {K : ι → Kind} [DecidableEq ι]

theorem Bf.Costs.embed {V α : Type} {L : Nat} {inj : α → V} {proj : V → Option α} {c : Codec α} {f : α → Bf Bytes}
    (h : ∀ a, Bf.Costs List.length L (f a) (c.enc a)) (v : V) :
    Bf.Costs List.length L (Bf.embed proj f v) ((c.embed inj proj).enc v) := by
  simp only [Bf.embed, Codec.embed]
  cases proj v with
  | none => exact .of _
  | some a => exact h a

section
variable {cfg : Cfg} {I : Impls K} {n : Nat} {c : (i : ι) → Codec (Values K n i)} {x : (i : ι) → Values K n i → Bf Bytes}
    {w : ι → Nat} (h : ∀ i v, Bf.Costs List.length (w i) (x i v) ((c i).enc v))
include h

omit [DecidableEq ι] in
theorem Field.refs_costs (f : Field K) : ∀ i ∈ f.ty.refs, ∀ v,
    Bf.Costs List.length ((f.ty.refs.map w).foldr max 0) (x i v) ((c i).enc v) :=
  fun i hi v => (h i v).weaken (le_foldr_max (List.mem_map_of_mem hi))

theorem Field.plain_costs (f : Field K) (v) : Bf.Costs List.length ((f.ty.refs.map w).foldr max 0)
    ((f.buffered cfg I n c x).plain v) ((f.decl cfg I n c).plain.enc v) :=
  .embed (Ty.buffered_costs cfg (I.env n c) x f.ty (f.refs_costs h)) v

theorem Field.legacy_costs (f : Field K) (v) : Bf.Costs List.length ((f.ty.refs.map w).foldr max 0)
    ((f.buffered cfg I n c x).legacy v) ((f.decl cfg I n c).legacyC.enc v) := by
  have h1 : ∀ v, Bf.Costs List.length ((f.ty.refs.map w).foldr max 0)
      ((f.buffered cfg I n c x).fixedLe v) ((f.decl cfg I n c).fixedLe.enc v) :=
    fun v => .embed (bufferedFixed_costs cfg (I.env n c) x f.ty (f.refs_costs h)) v
  have h2 : ∀ v, Bf.Costs List.length ((f.ty.refs.map w).foldr max 0)
      ((f.buffered cfg I n c x).bulk v) ((f.decl cfg I n c).bulk.enc v) :=
    fun v => .embed (bufferedBulk_costs cfg (I.env n c) x f.ty (f.refs_costs h)) v
  have hd : (f.buffered cfg I n c x).decl = f.decl cfg I n c := rfl
  unfold BufferedField.legacy FieldDecl.legacyC
  rw [hd]
  split
  · exact h1 v
  · split
    · exact h2 v
    · exact f.plain_costs h v

theorem Field.wire_costs (e : Entry) (f : Field K) (v) : Bf.Costs List.length (f.buffers e w)
    ((f.buffered cfg I n c x).wire e v) (((f.decl cfg I n c).wire e).enc v) := by
  have h1 : ∀ v, Bf.Costs List.length ((f.ty.refs.map w).foldr max 0 + 1)
      ((f.buffered cfg I n c x).indexed v) ((f.decl cfg I n c).indexed.enc v) :=
    fun v => .embed (bufferedIndexed_costs cfg (I.env n c) x f.ty (f.refs_costs h)) v
  unfold BufferedField.wire FieldDecl.wire FieldDecl.optimisedC Field.buffers
  by_cases ho : e.optimised = true
  · simp only [ho, if_true, Bool.true_and]
    by_cases hi : f.isIndexed = true
    · have hd : (f.decl cfg I n c).isIndexed = true := hi
      have hd' : (f.buffered cfg I n c x).decl.isIndexed = true := hi
      simp only [hi, hd, hd', if_true]
      rw [Nat.add_comm]
      exact h1 v
    · have hd : ¬ (f.decl cfg I n c).isIndexed = true := hi
      have hd' : ¬ (f.buffered cfg I n c x).decl.isIndexed = true := hi
      simp only [hi, hd, hd']
      exact (f.plain_costs h v).weaken (by omega)
  · simp only [ho]
    exact (f.legacy_costs h v).weaken (by omega)

theorem Field.variantWire_costs (e : Entry) (f : Field K) (v) : Bf.Costs List.length (f.buffers e w)
    ((f.buffered cfg I n c x).variantWire e v) (((f.decl cfg I n c).variantWire e).enc v) := by
  unfold BufferedField.variantWire FieldDecl.variantWire Field.buffers
  by_cases ho : e.optimised = true
  · simp only [ho, if_true]
    exact (f.plain_costs h v).weaken (by omega)
  · simp only [ho]
    exact (f.legacy_costs h v).weaken (by omega)

theorem Body.buffered_costs (hist : List Entry) : ∀ {k : Kind} (b : Body K k) (v), Bf.Costs List.length
    ((if (lastEntry hist).optimised then 1 else 0) +
      ((b.fieldsAt (lastEntry hist).revision).map (Field.buffers (lastEntry hist) w)).foldr max 0)
    (Body.buffered cfg I n c x hist b v) ((Body.codec cfg I n c hist b).enc v)
  | _, .struct fs, v => by
    have hb := bufferedStructBody_costs (e := lastEntry hist) (fs := fs.map (·.buffered cfg I n c x)) v fun g hg hl v => by
      obtain ⟨f, hf, rfl⟩ := List.mem_map.1 hg
      exact (f.wire_costs h (lastEntry hist) v).weaken (le_foldr_max (List.mem_map_of_mem (List.mem_filter.2 ⟨hf, hl⟩)))
    rw [List.map_map] at hb
    exact hb.map fun b => le_append _ b
  | _, .enum vs, v => by
    have hb := bufferedEnumBody_costs cfg (e := lastEntry hist) (vs := vs.map (·.buffered cfg I n c x)) v
      (fun g hg => by
        obtain ⟨u, _, rfl⟩ := List.mem_map.1 hg
        show _ = (u.fields.map _).map _
        rw [List.map_map]
        rfl)
      fun g hg hl f hf hl' v => by
        obtain ⟨u, hu, rfl⟩ := List.mem_map.1 hg
        obtain ⟨f, hf', rfl⟩ := List.mem_map.1 hf
        exact (f.variantWire_costs h (lastEntry hist) v).weaken (le_foldr_max (List.mem_map_of_mem
          (List.mem_flatMap.2 ⟨u, List.mem_filter.2 ⟨hu, hl⟩, List.mem_filter.2 ⟨hf', hl'⟩⟩)))
    rw [List.map_map] at hb
    exact hb.map fun b => le_append _ b
  | _, .foreign i, v => .of (i.codec.enc v)

end

theorem Program.buffered_costs (cfg : Cfg) (P : Program ι) (I : Impls P.kind) : ∀ (n : Nat) (i : ι) (v : Values P.kind n i),
    Bf.Costs List.length (P.buffers n i) (P.buffered cfg I n i v) ((P.codec cfg I n i).enc v)
  | 0, _, v => nomatch v
  | n + 1, i, v => Body.buffered_costs (Program.buffered_costs cfg P I n) (P.history i) (P.body i) v

end

end Revision
