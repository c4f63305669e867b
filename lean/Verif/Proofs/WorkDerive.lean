import Verif.Proofs.Work
import Verif.Proofs.AllocProgram
import Verif.Proofs.Depth

/-! Helper lemmas: counting the steps of derived readers. -/

namespace Revision

@[simp] theorem Ct.erase_within (m : Ct α) (b : Bytes) : (m.within b).erase = Rd.lift (m.erase.within b) := by
  show Rd.mk _ = Rd.mk _
  congr
  funext s
  rcases h : m b with ⟨k, ⟨a, r⟩ | e | _⟩ <;> simp [Rd.within, Ct.erase, Ct.within, h]

section
variable [Tariff]

namespace Counted.Counts

theorem embed {V : Type} {x : Counted α} {c : Codec α} (h : x.Counts c) (inj : α → V) (proj) :
    (x.embed inj).Counts (c.embed inj proj) := by
  constructor <;> simp [Counted.embed, Codec.embed, h.dec, h.skip, h.skipS, h.check]

theorem readIndexedMap {k : Ct κ} {v : Ct ν} (pre capK capV) (build) : (Counted.readIndexedMap pre capK capV k v build).erase =
    Revision.readIndexedMap pre capK capV k.erase v.erase build := by
  simp [Counted.readIndexedMap, Revision.readIndexedMap]

theorem readIndexedSeq {c : Ct α} (cap) : (Counted.readIndexedSeq cap c).erase = Revision.readIndexedSeq cap c.erase := by
  simp [Counted.readIndexedSeq, Revision.readIndexedSeq]

theorem skipIndexedMap {k v : Ct Unit} : (Counted.skipIndexedMap k v).erase = Revision.skipIndexedMap k.erase v.erase := by
  simp [Counted.skipIndexedMap, Revision.skipIndexedMap]

theorem skipIndexedSeq {c : Ct Unit} : (Counted.skipIndexedSeq c).erase = Revision.skipIndexedSeq c.erase := by
  simp [Counted.skipIndexedSeq, Revision.skipIndexedSeq]

end Counted.Counts

section
variable {ι : Type} (cfg : Cfg) (E : Env ι) (x : (i : ι) → Counted (E.X i)) (hx : ∀ i, (x i).Counts (E.extC i))
include hx

theorem countedFixed_counts (t : Ty ι) : (countedFixed cfg E x t).Counts (fixedOf cfg E t) := by
  cases t <;> first | exact Ty.counted_counts cfg E x hx _ | exact .leaf _

theorem countedBulk_counts (t : Ty ι) : (countedBulk cfg E x t).Counts (bulkOf cfg E t) := by
  cases t <;> first | exact Ty.counted_counts cfg E x hx _ | exact countedVec_counts _ E _ (Ty.counted_counts cfg E x hx _)

theorem countedIndexed_counts (t : Ty ι) : (countedIndexed cfg E x t).Counts (indexedOf cfg E t) := by
  have h := fun t => Ty.counted_counts cfg E x hx t
  have map : ∀ (k v : Ty ι) pre capK capV build, (Counted.readIndexedMap pre capK capV (k.counted cfg E x).dec (v.counted cfg E x).dec build).erase =
      Revision.readIndexedMap pre capK capV (k.codec cfg E).dec (v.codec cfg E).dec build := fun k v pre capK capV build => by
    rw [Counted.Counts.readIndexedMap, (h k).dec, (h v).dec]
  have seq : ∀ (t : Ty ι) cap, (Counted.readIndexedSeq cap (t.counted cfg E x).dec).erase =
      Revision.readIndexedSeq cap (t.codec cfg E).dec := fun t cap => by rw [Counted.Counts.readIndexedSeq, (h t).dec]
  have mapS : ∀ (k v : Ty ι), (Counted.skipIndexedMap (k.counted cfg E x).skip (v.counted cfg E x).skip).erase =
      Revision.skipIndexedMap (k.codec cfg E).skip (v.codec cfg E).skip := fun k v => by
    rw [Counted.Counts.skipIndexedMap, (h k).skip, (h v).skip]
  have seqS : ∀ (t : Ty ι), (Counted.skipIndexedSeq (t.counted cfg E x).skip).erase =
      Revision.skipIndexedSeq (t.codec cfg E).skip := fun t => by rw [Counted.Counts.skipIndexedSeq, (h t).skip]
  have set : ∀ (t : Ty ι) cap (build : List (t.denote E.X) → List (t.denote E.X)), (do let l ← Counted.readIndexedSeq cap (t.counted cfg E x).dec; pure (build l) : Ct _).erase =
      (do let l ← Revision.readIndexedSeq cap (t.codec cfg E).dec; pure (build l) : Rd (List (t.denote E.X))) :=
    fun t cap build => by rw [Ct.erase_bind, seq]; rfl
  have disc : ∀ {α : Type} {m : Ct α} {m' : Rd α}, m.erase = m' → m.discard.erase = m'.discard := fun e => by
    rw [Ct.erase_discard, e]
  cases t <;> first
    | exact h _
    | exact .call ⟨map _ _ _ _ _ _, mapS _ _, mapS _ _, disc (map _ _ _ _ _ _)⟩
    | exact .call ⟨seq _ _, seqS _, seqS _, disc (seq _ _)⟩
    | exact .call ⟨set _ _ _, seqS _, seqS _, disc (seq _ _)⟩

end

/-- The counted impls of a field are its impls. -/
structure CountedField.Counts {V : Type} (f : CountedField V) : Prop where
  plain : f.plain.Counts f.decl.plain
  fixedLe : f.fixedLe.Counts f.decl.fixedLe
  bulk : f.bulk.Counts f.decl.bulk
  indexed : f.indexed.Counts f.decl.indexed

section
variable {V : Type}

namespace CountedField.Counts

theorem legacy {f : CountedField V} (h : f.Counts) : f.legacy.Counts f.decl.legacyC := by
  unfold CountedField.legacy FieldDecl.legacyC
  split
  · exact h.fixedLe
  · split
    · exact h.bulk
    · exact h.plain

theorem wire {f : CountedField V} (h : f.Counts) (e : Entry) : (f.wire e).Counts (f.decl.wire e) := by
  unfold CountedField.wire FieldDecl.wire FieldDecl.optimisedC
  split
  · split
    · exact h.indexed
    · exact h.plain
  · exact h.legacy

theorem removedDec {f : CountedField V} (h : f.Counts) (e : Entry) : (f.removedDec e).erase = f.decl.removedDec e := by
  unfold CountedField.removedDec FieldDecl.removedDec
  split
  · exact h.plain.dec
  · exact h.legacy.dec

theorem legacySkip {f : CountedField V} (h : f.Counts) : f.legacySkip.erase = f.decl.legacySkip := by
  unfold CountedField.legacySkip FieldDecl.legacySkip
  split
  · exact h.fixedLe.skip
  · exact h.plain.skip

theorem legacySkipS {f : CountedField V} (h : f.Counts) : f.legacySkipS.erase = f.decl.legacySkipS := by
  unfold CountedField.legacySkipS FieldDecl.legacySkipS
  split
  · exact h.fixedLe.skip
  · exact h.plain.skipS

end CountedField.Counts

theorem countedFields_counts {live removed : CountedField V → Ct V} {live' removed' : FieldDecl V → Rd V} {cur tgt : Nat} :
    ∀ (fs : List (CountedField V)) (env : Binds V), (∀ f ∈ fs, (live f).erase = live' f.decl) →
    (∀ f ∈ fs, (removed f).erase = removed' f.decl) →
    (countedFields live removed cur tgt fs env).erase = decodeFields live' removed' cur tgt (fs.map (·.decl)) env
  | [], _, _, _ => rfl
  | f :: fs, env, hl, hr => by
    have ih := fun env => countedFields_counts (cur := cur) (tgt := tgt) fs env
      (fun g hg => hl g (List.mem_cons_of_mem _ hg)) (fun g hg => hr g (List.mem_cons_of_mem _ hg))
    simp [countedFields, decodeFields, ih, hl f List.mem_cons_self, hr f List.mem_cons_self]

theorem countedStructBody_counts {live removed : CountedField V → Ct V} {live' removed' : FieldDecl V → Rd V} {cur tgt : Nat}
    (fs : List (CountedField V)) (hl : ∀ f ∈ fs, (live f).erase = live' f.decl)
    (hr : ∀ f ∈ fs, (removed f).erase = removed' f.decl) :
    (countedStructBody live removed cur tgt fs).erase = decodeStructBody live' removed' cur tgt (fs.map (·.decl)) := by
  simp [countedStructBody, decodeStructBody, countedFields_counts fs [] hl hr]

theorem countedStruct_counts (e : Entry) (tgt : Nat) (fs : List (CountedField V)) (h : ∀ f ∈ fs, f.Counts) :
    (countedStruct e tgt fs).erase = deserializeStructBody e tgt (fs.map (·.decl)) := by
  have hb := countedStructBody_counts (cur := e.revision) (tgt := tgt) (live := fun f => (f.wire e).dec)
    (live' := fun f => (f.wire e).dec) (removed := fun f => f.removedDec e) (removed' := fun f => f.removedDec e) fs
    (fun f hf => ((h f hf).wire e).dec) (fun f hf => (h f hf).removedDec e)
  simp [countedStruct, deserializeStructBody, hb]

theorem countedSkipFields_counts {skip : CountedField V → Ct Unit} {skip' : FieldDecl V → Rd Unit} {cur tgt : Nat} :
    ∀ (fs : List (CountedField V)), (∀ f ∈ fs, (skip f).erase = skip' f.decl) →
    (countedSkipFields skip cur tgt fs).erase = skipFields skip' cur tgt (fs.map (·.decl))
  | [], _ => rfl
  | f :: fs, h => by
    have ih := countedSkipFields_counts (cur := cur) (tgt := tgt) fs fun g hg => h g (List.mem_cons_of_mem _ hg)
    simp [countedSkipFields, skipFields, ih, h f List.mem_cons_self]

theorem countedDispatch_counts (cfg : Cfg) (h : List Entry) {arm : Entry → Ct α} {arm' : Entry → Rd α}
    (ha : ∀ e, (arm e).erase = arm' e) : (countedDispatch cfg h arm).erase = dispatchRevision cfg h arm' := by
  simp only [countedDispatch, dispatchRevision, Ct.erase_bind, Ct.erase_of]
  congr
  funext r
  cases h.find? (fun e => e.revision == r) with
  | none => rfl
  | some e => exact ha e

/-- The counted fields of a variant are its fields. -/
structure CountedVariant.Counts (v : CountedVariant V) : Prop where
  decl : v.decl.fields = v.fields.map (·.decl)
  fields : ∀ f ∈ v.fields, f.Counts

theorem countedArms_map (vs : List (CountedVariant V)) (r : Nat) :
    variantArms (vs.map (·.decl)) r = (countedArms vs r).map fun a => (a.1, a.2.decl) := by
  unfold variantArms countedArms
  generalize discsAt (vs.map (·.decl)) r = D
  induction vs with
  | nil => rfl
  | cons v vs ih =>
    simp only [List.map_cons, List.filter_cons]
    split
    · simp only [List.filterMap_cons, ih]
      cases D.lookup v.decl.ident <;> rfl
    · exact ih

theorem countedArms_mem {vs : List (CountedVariant V)} {r : Nat} {a : Nat × CountedVariant V} (h : a ∈ countedArms vs r) :
    a.2 ∈ vs := by
  unfold countedArms at h
  obtain ⟨v, hv, e⟩ := List.mem_filterMap.1 h
  cases hd : (discsAt (vs.map (·.decl)) r).lookup v.decl.ident with
  | none => rw [hd] at e; cases e
  | some d =>
    rw [hd] at e
    cases e
    exact (List.mem_filter.1 hv).1

theorem countedAlive_counts {r : Nat} : ∀ (fs : List (CountedField V)), (∀ f ∈ fs, f.Counts) →
    (countedAlive r fs).erase = decodeAlive r (fs.map (·.decl))
  | [], _ => rfl
  | f :: fs, h => by
    have ih := countedAlive_counts (r := r) fs fun g hg => h g (List.mem_cons_of_mem _ hg)
    simp [countedAlive, decodeAlive, ih, (h f List.mem_cons_self).plain.dec]

theorem countedLegacyVariant_counts (e : Entry) (tgt : Nat) {v : CountedVariant V} (h : v.Counts) :
    (countedLegacyVariant e tgt v).erase = decodeLegacyVariant e tgt v.decl := by
  have hb := countedStructBody_counts (cur := e.revision) (tgt := tgt) (live := fun f => f.legacy.dec)
    (live' := fun f => f.legacyC.dec) (removed := fun f => f.legacy.dec) (removed' := fun f => f.legacyC.dec) v.fields
    (fun f hf => (h.fields f hf).legacy.dec) (fun f hf => (h.fields f hf).legacy.dec)
  simp [countedLegacyVariant, decodeLegacyVariant, hb, h.decl]

theorem countedOptimisedVariant_counts (e : Entry) (tgt : Nat) {v : CountedVariant V} (h : v.Counts) :
    (countedOptimisedVariant e tgt v).erase = decodeOptimisedVariant e tgt v.decl := by
  simp [countedOptimisedVariant, decodeOptimisedVariant, countedAlive_counts v.fields h.fields, h.decl]

theorem countedEnum_counts (cfg : Cfg) (e : Entry) (tgt : Nat) (vs : List (CountedVariant V)) (h : ∀ v ∈ vs, v.Counts) :
    (countedEnum cfg e tgt vs).erase = deserializeEnumBody cfg e tgt (vs.map (·.decl)) := by
  unfold countedEnum deserializeEnumBody
  rw [countedArms_map, Ct.erase_ite]
  congr 1
  · simp only [Ct.erase_bind, Ct.erase_of]
    congr
    funext p
    rcases p with ⟨tag, sc⟩
    simp only [List.find?_map, Function.comp_def]
    generalize hf : (countedArms vs e.revision).find? _ = o
    cases o with
    | none => rfl
    | some a => exact countedOptimisedVariant_counts e tgt (h _ (countedArms_mem (List.mem_of_find?_eq_some hf)))
  · simp only [Ct.erase_bind, Ct.erase_of]
    congr
    funext d
    simp only [List.find?_map, Function.comp_def]
    generalize hf : (countedArms vs e.revision).find? _ = o
    cases o with
    | none => rfl
    | some a => exact countedLegacyVariant_counts e tgt (h _ (countedArms_mem (List.mem_of_find?_eq_some hf)))

theorem countedSkipEnum_counts (cfg : Cfg) (adv : Nat → Rd Unit) {skip : CountedField V → Ct Unit} {skip' : FieldDecl V → Rd Unit}
    (e : Entry) (tgt : Nat) (vs : List (CountedVariant V)) (h : ∀ v ∈ vs, v.Counts)
    (hs : ∀ f : CountedField V, f.Counts → (skip f).erase = skip' f.decl) :
    (countedSkipEnum cfg adv skip e tgt vs).erase = skipEnumBody cfg adv skip' e tgt (vs.map (·.decl)) := by
  unfold countedSkipEnum skipEnumBody
  rw [countedArms_map, Ct.erase_ite]
  congr 1
  · simp only [Ct.erase_bind, Ct.erase_of]
    congr
    funext p
    rcases p with ⟨tag, sc⟩
    cases sc <;> simp
  · simp only [Ct.erase_bind, Ct.erase_of]
    congr
    funext d
    simp only [List.find?_map, Function.comp_def]
    generalize hf : (countedArms vs e.revision).find? _ = o
    cases o with
    | none => rfl
    | some a =>
      have hv := h _ (countedArms_mem (List.mem_of_find?_eq_some hf))
      simp only [Option.map_some, hv.decl]
      exact countedSkipFields_counts _ fun f hf => hs f (hv.fields f hf)

theorem countedStructC_counts (cfg : Cfg) (h : List Entry) (fs : List (CountedField V)) (hf : ∀ f ∈ fs, f.Counts) :
    (countedStructC cfg h fs).Counts (structC cfg h (fs.map (·.decl))) := by
  have dec := countedDispatch_counts cfg h fun e => countedStruct_counts e (latest h) fs hf
  refine ⟨dec, ?_, ?_, ?_⟩
  · refine countedDispatch_counts cfg h fun e => ?_
    simp [countedSkipStruct, skipStructBody, countedSkipFields_counts fs fun f h => (hf f h).legacySkip]
  · refine countedDispatch_counts cfg h fun e => ?_
    simp [countedSkipStruct, skipSStructBody, countedSkipFields_counts fs fun f h => (hf f h).legacySkipS]
  · show (countedDispatch cfg h _).discard.erase = (dispatchRevision cfg h _).discard
    rw [Ct.erase_discard, dec]

theorem countedEnumC_counts (cfg : Cfg) (h : List Entry) (vs : List (CountedVariant V)) (hv : ∀ v ∈ vs, v.Counts) :
    (countedEnumC cfg h vs).Counts (enumC cfg h (vs.map (·.decl))) := by
  have dec := countedDispatch_counts cfg h fun e => countedEnum_counts cfg e (latest h) vs hv
  refine ⟨dec, ?_, ?_, ?_⟩
  · exact countedDispatch_counts cfg h fun e => countedSkipEnum_counts cfg _ e _ vs hv fun f h => h.legacySkip
  · exact countedDispatch_counts cfg h fun e => countedSkipEnum_counts cfg _ e _ vs hv fun f h => h.legacySkipS
  · show (countedDispatch cfg h _).discard.erase = (dispatchRevision cfg h _).discard
    rw [Ct.erase_discard, dec]

end

section
variable {ι : Type} {K : ι → Kind} [DecidableEq ι]

theorem Field.counted_counts (cfg : Cfg) (I : Impls K) (n : Nat) (c : (i : ι) → Codec (Values K n i))
    (x : (i : ι) → Counted (Values K n i)) (hx : ∀ i, (x i).Counts (c i)) (f : Field K) : (f.counted cfg I n c x).Counts :=
  ⟨.embed (Ty.counted_counts cfg (I.env n c) x hx f.ty) _ _, .embed (countedFixed_counts cfg (I.env n c) x hx f.ty) _ _,
    .embed (countedBulk_counts cfg (I.env n c) x hx f.ty) _ _, .embed (countedIndexed_counts cfg (I.env n c) x hx f.ty) _ _⟩

theorem Body.counted_counts (cfg : Cfg) (I : Impls K) (n : Nat) (c : (i : ι) → Codec (Values K n i))
    (x : (i : ι) → Counted (Values K n i)) (hx : ∀ i, (x i).Counts (c i)) (h : List Entry) :
    {k : Kind} → (b : Body K k) → (b.counted cfg I n c x h).Counts (b.codec cfg I n c h)
  | _, .struct fs => by
    have := countedStructC_counts cfg h (fs.map (·.counted cfg I n c x)) fun f hf => by
      obtain ⟨g, _, rfl⟩ := List.mem_map.1 hf
      exact g.counted_counts cfg I n c x hx
    rw [List.map_map] at this
    exact .call this
  | _, .enum vs => by
    have := countedEnumC_counts cfg h (vs.map (·.counted cfg I n c x)) fun v hv => by
      obtain ⟨w, _, rfl⟩ := List.mem_map.1 hv
      refine ⟨?_, fun f hf => ?_⟩
      · show w.fields.map _ = (w.fields.map _).map _
        rw [List.map_map]
        rfl
      · obtain ⟨g, _, rfl⟩ := List.mem_map.1 hf
        exact g.counted_counts cfg I n c x hx
    rw [List.map_map] at this
    exact .call this
  | _, .foreign _ => .leaf _

theorem Program.counted_counts (cfg : Cfg) (P : Program ι) (I : Impls P.kind) :
    ∀ (n : Nat) (i : ι), (P.counted cfg I n i).Counts (P.codec cfg I n i)
  | 0, _ => .leaf _
  | n + 1, i => Body.counted_counts cfg I n _ _ (Program.counted_counts cfg P I n) (P.history i) (P.body i)

end

end

/-! ### Costs -/

namespace Ct.Costs

variable {Z R n : Nat} {w : Bool}

theorem lift {x : Res α} {f : α → Ct β} (hf : ∀ a, x = .ok a → Costs Z R n w (f a)) :
    Costs Z R n w (Ct.of (Rd.lift x) >>= f) := by
  have key : ∀ s, (Ct.of (Rd.lift x) >>= f) s = match x with
    | .ok a => (0 + (f a s).1, (f a s).2) | .err e => (0, .err e) | .panic => (0, .panic) := by
    intro s
    have h0 : (Ct.of (Rd.lift x)) s = (0, Rd.lift x s) := rfl
    rw [Ct.bind_run, h0]
    cases x <;> rfl
  cases x with
  | ok a =>
    have h := hf a rfl
    refine ⟨fun s k b r e => ?_, fun s => ?_⟩
    · rw [key] at e
      simp only [Nat.zero_add] at e
      exact h.1 s k b r e
    · rw [key]
      simpa using h.2 s
  | err e =>
    refine ⟨fun s k b r e => ?_, fun s => ?_⟩
    · rw [key] at e; cases e
    · rw [key]; exact Nat.zero_le _
  | panic =>
    refine ⟨fun s k b r e => ?_, fun s => ?_⟩
    · rw [key] at e; cases e
    · rw [key]; exact Nat.zero_le _

/-- What follows a reader that takes `p` bytes is paid for by those. -/
theorem payN {m : Rd α} {f : α → Ct β} {p : Nat} (h : m.Eats p) (hf : ∀ a, Costs Z R n w (f a)) (hR : n ≤ R * p) :
    Costs Z R 0 w (Ct.of m >>= f) := by
  have key : ∀ s, (Ct.of m >>= f) s = match m s with
    | .ok (a, r) => (0 + (f a r).1, (f a r).2) | .err e => (0, .err e) | .panic => (0, .panic) := by
    intro s
    have h0 : (Ct.of m) s = (0, m s) := rfl
    rw [Ct.bind_run, h0]
    rcases m s with ⟨_, _⟩ | _ | _ <;> rfl
  have byte : ∀ s a s1, m s = .ok (a, s1) → R * s1.length + R * p ≤ R * s.length := by
    intro s a s1 e
    have := Nat.mul_le_mul_left R (h s a s1 e)
    rwa [Nat.mul_add] at this
  refine ⟨fun s k b r e => ?_, fun s => ?_⟩
  · rw [key] at e
    rcases hm : m s with ⟨a, s1⟩ | _ | _ <;> rw [hm] at e <;> try (cases e; done)
    simp only [Prod.mk.injEq] at e
    have h1 := byte s a s1 hm
    have h2 := (hf a).1 s1 (f a s1).1 b r (by rw [← e.2])
    omega
  · rw [key]
    rcases hm : m s with ⟨a, s1⟩ | _ | _ <;> simp only
    · have h1 := byte s a s1 hm
      have h2 := (hf a).2 s1
      omega
    · omega
    · omega

/-- Reading a part of the input of its own. -/
theorem within {m : Rd Bytes} {g : Bytes → Ct α} {c : Ct α} (hc : Costs Z R n w c)
    (hm : ∀ s b r, m s = .ok (b, r) → b.length + r.length ≤ s.length)
    (hg : ∀ b, (∃ b', b'.length ≤ b.length ∧ g b = c.within b') ∨ ∃ e, g b = Ct.of (Rd.fail e)) :
    Costs Z R n false (Ct.of m >>= g) := by
  have key : ∀ s, (Ct.of m >>= g) s = match m s with
    | .ok (a, r) => (0 + (g a r).1, (g a r).2) | .err e => (0, .err e) | .panic => (0, .panic) := by
    intro s
    have h0 : (Ct.of m) s = (0, m s) := rfl
    rw [Ct.bind_run, h0]
    rcases m s with ⟨_, _⟩ | _ | _ <;> rfl
  have main : ∀ s b r, m s = .ok (b, r) → (g b r).1 + R * r.length ≤ n + R * s.length ∧
      ∀ v r', (g b r).2 = .ok (v, r') → r' = r := by
    intro s b r e
    have hl := Nat.mul_le_mul_left R (hm s b r e)
    rw [Nat.mul_add] at hl
    rcases hg b with ⟨b', hb, e'⟩ | ⟨e', e''⟩
    · rw [e']
      have h1 := hc.2 b'
      have h2 := Nat.mul_le_mul_left R hb
      refine ⟨?_, fun v r' h => ?_⟩
      · show (c b').1 + _ ≤ _
        omega
      · have h : (match (c b').2 with | .ok (a, _) => .ok (a, r) | .err e => .err e | .panic => .panic : Res (α × Bytes)) = .ok (v, r') := h
        generalize (c b').2 = o at h
        rcases o with ⟨_, _⟩ | _ | _ <;> cases h
        rfl
    · rw [e'']
      refine ⟨?_, fun v r' h => by cases h⟩
      show 0 + _ ≤ _
      omega
  refine ⟨fun s k b r e => ?_, fun s => ?_⟩
  · rw [key] at e
    rcases hb : m s with ⟨a, s1⟩ | _ | _ <;> rw [hb] at e <;> try (cases e; done)
    simp only [Prod.mk.injEq] at e
    obtain ⟨h1, h2⟩ := main s a s1 hb
    have := h2 b r e.2
    subst this
    simp only [Bool.false_eq_true, if_false]
    omega
  · rw [key]
    rcases hb : m s with ⟨a, s1⟩ | _ | _ <;> simp only
    · obtain ⟨h1, h2⟩ := main s a s1 hb
      omega
    · omega
    · omega

end Ct.Costs

open Ct.Costs

section
variable {Z R : Nat}

theorem Ct.Costs.weak {m : Ct α} {n n' : Nat} {w : Bool} (h : Costs Z R n w m) (hn : n ≤ n') : Costs Z R n' false m :=
  h.weaken hn nofun

theorem Counted.Costs.readIndexedMap {k : Ct κ} {v : Ct ν} {pre capK capV build} {a b : Nat} {wk wv : Bool}
    (hk : k.Costs Z R a wk) (hv : v.Costs Z R b wv) (hw : (wk || wv) = true) (hn : a + b ≤ Z) (hR : 2 * Z ≤ R) :
    (Counted.readIndexedMap pre capK capV k v build).Costs Z R 0 true := by
  refine pay (n := a + b) (w := false) Rd.Eats.readByte (fun flags => ?_) (by omega)
  refine ((of0 (readVarint_eats.weaken (by omega))).bind (n' := a + b) (w' := false) fun len =>
    ((of0 (Rd.Eats.alloc _)).bind (n' := a + b) (w' := false) fun _ => Ct.Costs.ite ?_ ?_).weak (by omega)).weak (by omega)
  · have hp : (do let a ← k; let b ← v; Pure.pure (a, b) : Ct (κ × ν)).Costs Z R (a + b) true :=
      (hk.bind fun _ => hv.bind fun _ => pure _).weaken (by omega) (by simpa using hw)
    exact ((hp.readN hn len).bind fun _ => pure _).weak (by omega)
  · refine (lift (n := 0) (w := false) fun t ht => lift fun n hn' => payN (n := len * a + len * b) (Rd.Eats.advance n) (fun _ =>
      ((of0 (Rd.Eats.alloc _)).bind fun _ => (hk.readN_fixed len).bind fun _ => (of0 (Rd.Eats.alloc _)).bind fun _ =>
        (hv.readN_fixed len).bind fun _ => pure _).weak (by omega)) ?_).weak (by omega)
    have e1 : t = len * 8 := by unfold checkedMul at ht; split at ht <;> cases ht; rfl
    have e2 : n = t + 8 := by unfold addU at hn'; split at hn' <;> cases hn'; rfl
    have h1 : len * (a + b) ≤ n * R := Nat.mul_le_mul (by omega) (by omega)
    rw [Nat.mul_add, Nat.mul_comm n R] at h1
    exact h1

theorem Counted.Costs.skipIndexedMap {k v : Ct Unit} {a b : Nat} {wk wv : Bool}
    (hk : k.Costs Z R a wk) (hv : v.Costs Z R b wv) (hw : (wk || wv) = true) (hn : a + b ≤ Z) (hR : 2 * Z ≤ R) :
    (Counted.skipIndexedMap k v).Costs Z R 0 true := by
  refine pay (n := a + b) (w := false) Rd.Eats.readByte (fun flags => ?_) (by omega)
  refine ((of0 (readVarint_eats.weaken (by omega))).bind (n' := a + b) (w' := false) fun len => Ct.Costs.ite ?_ ?_).weak (by omega)
  · have hp : (do k; v : Ct Unit).Costs Z R (a + b) true := (hk.bind fun _ => hv).weaken (by omega) (by simpa using hw)
    exact (hp.repeatN hn len).weak (by omega)
  · exact (lift (n := 0) (w := false) fun t _ => ((of0 (advance_eats0 _)).bind fun _ => (of0 (readExact_eats0 _)).bind fun _ =>
      of0 (advance_eats0 _)).weak (by omega)).weak (by omega)

theorem Counted.Costs.readIndexedSeq {c : Ct α} {cap} {a : Nat} (h : c.Costs Z R a true) (hn : a ≤ Z) (hR : 2 * Z ≤ R) :
    (Counted.readIndexedSeq cap c).Costs Z R 0 true := by
  refine pay (n := a) (w := false) Rd.Eats.readByte (fun flags => ?_) (by omega)
  have body := fun len => ((of0 (Z := Z) (R := R) (Rd.Eats.alloc (cap len))).bind fun _ => h.readN hn len).weak (n' := a) (by omega)
  refine ((of0 (readVarint_eats.weaken (by omega))).bind (n' := a) (w' := false) fun len => Ct.Costs.ite (body len) ?_).weak (by omega)
  exact lift fun t _ => ((of0 (advance_eats0 _)).bind fun _ => body len).weak (by omega)

theorem Counted.Costs.skipIndexedSeq {c : Ct Unit} {a : Nat} (h : c.Costs Z R a true) (hn : a ≤ Z) (hR : 2 * Z ≤ R) :
    (Counted.skipIndexedSeq c).Costs Z R 0 true := by
  refine pay (n := a) (w := false) Rd.Eats.readByte (fun flags => ?_) (by omega)
  refine ((of0 (readVarint_eats.weaken (by omega))).bind (n' := a) (w' := false) fun len =>
    Ct.Costs.ite (h.repeatN hn len) (Ct.Costs.ite ((pure _).weak (by omega)) ?_)).weak (by omega)
  exact lift fun t _ => ((of0 (peek_eats _)).bind (n' := a) (w' := false) fun _ => lift fun _ _ =>
    ((of0 (advance_eats0 _)).bind fun _ => (of0 (advance_eats0 _)).bind fun _ => h).weak (by omega)).weak (by omega)

end

section
variable {ι : Type} {Z R : Nat} (cfg : Cfg) (E : Env ι) (x : (i : ι) → Counted (E.X i)) (hx : ∀ i, (x i).Costs Z R 1 true)
  (hR : 2 * Z ≤ R) (h8 : 8 ≤ R)
include hx hR h8

theorem countedFixed_costs (t : Ty ι) (hs : t.solid = true) (hZ : t.widest ≤ Z) :
    (countedFixed cfg E x t).Costs Z R t.breadth false := by
  have h := (Ty.counted_costs cfg E x hx hR h8 t hs hZ).cast (Nat.le_refl _) (w' := false) nofun
  cases t <;> try exact h
  rename_i k
  have hf : ∀ n, 1 ≤ n → (fixedC n).Weighty := fun n hn =>
    have h := Rd.discard_eats1 ((Rd.Eats.readExact n).weaken hn)
    ⟨(readLE_eats _ _).weaken hn, h, h, h⟩
  have : (fixedIntC cfg k).Weighty := by
    cases k <;> first
      | exact .mirror (decInt_eats cfg _)
      | exact hf 4 (by omega)
      | exact hf 8 (by omega)
      | exact hf 16 (by omega)
  exact (Counted.Costs.leaf this (by omega)).cast (Nat.le_refl _) nofun

theorem countedBulk_costs (t : Ty ι) (hs : t.solid = true) (hZ : t.widest ≤ Z) :
    (countedBulk cfg E x t).Costs Z R t.breadth false := by
  have h := fun (t : Ty ι) hs hZ => Ty.counted_costs cfg E x hx hR h8 t hs hZ
  have h' := (h t hs hZ).cast (Nat.le_refl _) (w' := false) nofun
  cases t <;> try exact h'
  rename_i t
  simp only [Ty.solid, Bool.and_eq_true, Ty.widest] at hs hZ
  refine (countedVec_costs _ E t ?_ (Nat.le_trans t.breadth_le hZ) hR h8).cast (Nat.le_refl _) nofun
  have := h t hs.2 hZ
  rwa [hs.1] at this

theorem countedIndexed_costs (t : Ty ι) (hs : t.solid = true) (hZ : t.widest ≤ Z) :
    (countedIndexed cfg E x t).Costs Z R t.breadth false := by
  have h := fun (t : Ty ι) hs hZ => Ty.counted_costs cfg E x hx hR h8 t hs hZ
  have h' := (h t hs hZ).cast (Nat.le_refl _) (w' := false) nofun
  have map : ∀ (k v : Ty ι) pre capK capV build, (!(k.weightless && v.weightless) && k.solid && v.solid) = true →
      max (k.breadth + v.breadth) (max k.widest v.widest) ≤ Z →
      (Counted.call (.indexedMap pre capK capV (k.counted cfg E x) (v.counted cfg E x) build)).Costs Z R 1 false := by
    intro k v pre capK capV build hs hZ
    simp only [Bool.and_eq_true] at hs
    have hk := h k hs.1.2 (by omega)
    have hv := h v hs.2 (by omega)
    have hw : ((!k.weightless) || (!v.weightless)) = true := by simpa [Bool.not_and] using hs.1.1
    have dec := Counted.Costs.readIndexedMap (pre := pre) (capK := capK) (capV := capV) (build := build) hk.dec hv.dec hw (by omega) hR
    have skip := Counted.Costs.skipIndexedMap hk.skip hv.skip hw (by omega) hR
    exact (Counted.Costs.call (n := 0) ⟨dec, skip, skip, dec.discard⟩).cast (Nat.le_refl _) nofun
  have one : ∀ t : Ty ι, (!t.weightless && t.solid) = true → t.widest ≤ Z → (t.counted cfg E x).Costs Z R t.breadth true := by
    intro t hs hZ
    simp only [Bool.and_eq_true] at hs
    have := h t hs.2 hZ
    rwa [hs.1] at this
  have seq : ∀ (t : Ty ι) cap, (!t.weightless && t.solid) = true → t.widest ≤ Z →
      (Counted.call (.indexedSeq cap (t.counted cfg E x))).Costs Z R 1 false := by
    intro t cap hs hZ
    have h1 := one t hs hZ
    have hn := Nat.le_trans t.breadth_le hZ
    have dec := Counted.Costs.readIndexedSeq (cap := cap) h1.dec hn hR
    have skip := Counted.Costs.skipIndexedSeq h1.skip hn hR
    exact (Counted.Costs.call (n := 0) ⟨dec, skip, skip, dec.discard⟩).cast (Nat.le_refl _) nofun
  have set : ∀ (t : Ty ι) cap build, (!t.weightless && t.solid) = true → t.widest ≤ Z →
      (Counted.call (.indexedSet cap (t.counted cfg E x) build)).Costs Z R 1 false := by
    intro t cap build hs hZ
    have h1 := one t hs hZ
    have hn := Nat.le_trans t.breadth_le hZ
    have dec := Counted.Costs.readIndexedSeq (cap := cap) h1.dec hn hR
    have skip := Counted.Costs.skipIndexedSeq h1.skip hn hR
    exact (Counted.Costs.call (n := 0) ⟨dec.bind fun _ => pure _, skip, skip, dec.discard⟩).cast (Nat.le_refl _) nofun
  cases t <;> first
    | exact map _ _ _ _ _ _ hs hZ
    | exact seq _ _ hs hZ
    | exact set _ _ _ hs hZ
    | exact h'

end

/-- Every reader of the field costs at most `k` steps and what its bytes pay. -/
structure CountedField.Costs {V : Type} (Z R k : Nat) (f : CountedField V) : Prop where
  plain : f.plain.Costs Z R k false
  fixedLe : f.fixedLe.Costs Z R k false
  bulk : f.bulk.Costs Z R k false
  indexed : f.indexed.Costs Z R k false

section
variable {V : Type} {Z R : Nat}

namespace CountedField.Costs
variable {k : Nat} {f : CountedField V}

theorem legacy (h : f.Costs Z R k) : f.legacy.Costs Z R k false := by
  unfold CountedField.legacy
  split
  · exact h.fixedLe
  · split
    · exact h.bulk
    · exact h.plain

theorem wire (h : f.Costs Z R k) (e : Entry) : (f.wire e).Costs Z R k false := by
  unfold CountedField.wire
  split
  · split
    · exact h.indexed
    · exact h.plain
  · exact h.legacy

theorem removedDec (h : f.Costs Z R k) (e : Entry) : (f.removedDec e).Costs Z R k false := by
  unfold CountedField.removedDec
  split
  · exact h.plain.dec
  · exact h.legacy.dec

theorem legacySkip (h : f.Costs Z R k) : f.legacySkip.Costs Z R k false := by
  unfold CountedField.legacySkip
  split
  · exact h.fixedLe.skip
  · exact h.plain.skip

theorem legacySkipS (h : f.Costs Z R k) : f.legacySkipS.Costs Z R k false := by
  unfold CountedField.legacySkipS
  split
  · exact h.fixedLe.skip
  · exact h.plain.skipS

end CountedField.Costs

variable {φ : Type} {d : φ → CountedField V} {k : φ → Nat}

theorem countedFields_costs {live removed : CountedField V → Ct V} {cur tgt : Nat} :
    ∀ (fs : List φ) (env : Binds V), (∀ f ∈ fs, (live (d f)).Costs Z R (k f) false) →
    (∀ f ∈ fs, (removed (d f)).Costs Z R (k f) false) →
    (countedFields live removed cur tgt (fs.map d) env).Costs Z R (fs.map k).sum false
  | [], _, _, _ => pure _
  | f :: fs, env, hl, hr => by
    have ih := fun env => countedFields_costs (cur := cur) (tgt := tgt) fs env
      (fun g hg => hl g (List.mem_cons_of_mem _ hg)) (fun g hg => hr g (List.mem_cons_of_mem _ hg))
    simp only [List.map_cons, countedFields, List.sum_cons]
    exact Ct.Costs.ite ((hl f List.mem_cons_self).bind fun _ => ih _)
      (Ct.Costs.ite (lift fun _ _ => (ih _).weak (by omega))
        (Ct.Costs.ite ((hr f List.mem_cons_self).bind fun _ => ih _) ((ih _).weak (by omega))))

theorem countedStructBody_costs {live removed : CountedField V → Ct V} {cur tgt : Nat} (fs : List φ)
    (hl : ∀ f ∈ fs, (live (d f)).Costs Z R (k f) false) (hr : ∀ f ∈ fs, (removed (d f)).Costs Z R (k f) false) :
    (countedStructBody live removed cur tgt (fs.map d)).Costs Z R (fs.map k).sum false :=
  ((countedFields_costs fs [] hl hr).bind (n' := 0) (w' := false) fun _ => lift fun _ _ => of0 (Rd.Eats.lift _)).weak (by omega)

theorem countedStruct_costs (e : Entry) (tgt : Nat) (fs : List φ) (h : ∀ f ∈ fs, (d f).Costs Z R (k f)) :
    (countedStruct e tgt (fs.map d)).Costs Z R (fs.map k).sum false := by
  have hb := countedStructBody_costs (cur := e.revision) (tgt := tgt) (live := fun f => (f.wire e).dec)
    (removed := fun f => f.removedDec e) fs (fun f hf => ((h f hf).wire e).dec) (fun f hf => (h f hf).removedDec e)
  unfold countedStruct
  simp only [Ct.copy_calls]
  refine Ct.Costs.ite (within hb (fun s b r hm => ?_) fun b => ?_) hb
  · obtain ⟨n, s1, h1, h2⟩ := Rd.bind_ok.1 hm
    have := readVarlenLen_eats _ _ _ h1
    have := (readExact_split h2).1
    have h3 : s1.length = b.length + r.length := by rw [this, List.length_append]
    omega
  · split
    · split
      · exact .inr ⟨_, rfl⟩
      · exact .inl ⟨_, by simp, rfl⟩
    · exact .inl ⟨_, Nat.le_refl _, rfl⟩

theorem countedSkipFields_costs {skip : CountedField V → Ct Unit} {cur tgt : Nat} :
    ∀ (fs : List φ), (∀ f ∈ fs, (skip (d f)).Costs Z R (k f) false) →
    (countedSkipFields skip cur tgt (fs.map d)).Costs Z R (fs.map k).sum false
  | [], _ => pure _
  | f :: fs, h => by
    have ih := countedSkipFields_costs (cur := cur) (tgt := tgt) fs fun g hg => h g (List.mem_cons_of_mem _ hg)
    simp only [List.map_cons, countedSkipFields, List.sum_cons]
    exact Ct.Costs.ite ((h f List.mem_cons_self).bind fun _ => ih)
      (Ct.Costs.ite (ih.weak (by omega)) (Ct.Costs.ite ((h f List.mem_cons_self).bind fun _ => ih) (ih.weak (by omega))))

theorem countedSkipStruct_costs {adv : Nat → Rd Unit} (hadv : ∀ n, (adv n).Eats 0) {skip : CountedField V → Ct Unit}
    (e : Entry) (tgt : Nat) (fs : List φ) (h : ∀ f ∈ fs, (skip (d f)).Costs Z R (k f) false) :
    (countedSkipStruct adv skip e tgt (fs.map d)).Costs Z R (fs.map k).sum false :=
  Ct.Costs.ite (((of0 readVarlenLen_eats).bind fun _ => of0 (hadv _)).weak (by omega)) (countedSkipFields_costs fs h)

theorem countedDispatch_costs (cfg : Cfg) (h : List Entry) {arm : Entry → Ct α} {n : Nat} (ha : ∀ e, (arm e).Costs Z R n false)
    (hR : n + Z ≤ R) : (countedDispatch cfg h arm).Costs Z R 0 true := by
  refine pay (readU16_eats cfg) (n := n) (w := false) (fun r => ?_) hR
  cases h.find? (fun e => e.revision == r) with
  | none => exact (Ct.Costs.fail _ false).weak (by omega)
  | some e => exact ha e

theorem countedStructC_costs (cfg : Cfg) (h : List Entry) (fs : List φ) (hf : ∀ f ∈ fs, (d f).Costs Z R (k f))
    (hR : (fs.map k).sum + Z ≤ R) : (countedStructC cfg h (fs.map d)).Costs Z R 0 true := by
  have dec := countedDispatch_costs cfg h (fun e => countedStruct_costs e (latest h) fs hf) hR
  exact ⟨dec, countedDispatch_costs cfg h (fun e => countedSkipStruct_costs advance_eats0 e (latest h) fs fun f h => (hf f h).legacySkip) hR,
    countedDispatch_costs cfg h (fun e => countedSkipStruct_costs consume_eats e (latest h) fs fun f h => (hf f h).legacySkipS) hR,
    dec.discard⟩

variable {ψ : Type} {F : ψ → List φ}

theorem countedAlive_costs {r : Nat} : ∀ (fs : List φ), (∀ f ∈ fs, (d f).Costs Z R (k f)) →
    (countedAlive r (fs.map d)).Costs Z R (fs.map k).sum false
  | [], _ => pure _
  | f :: fs, h => by
    have ih := countedAlive_costs (r := r) fs fun g hg => h g (List.mem_cons_of_mem _ hg)
    simp only [List.map_cons, countedAlive, List.sum_cons]
    exact Ct.Costs.ite (((h f List.mem_cons_self).plain.dec.bind fun _ => ih.bind fun _ => pure _).weak (by omega))
      (ih.weak (by omega))

theorem countedLegacyVariant_costs (e : Entry) (tgt : Nat) (v : CountedVariant V) (fs : List φ) (hv : v.fields = fs.map d)
    (h : ∀ f ∈ fs, (d f).Costs Z R (k f)) : (countedLegacyVariant e tgt v).Costs Z R (fs.map k).sum false := by
  unfold countedLegacyVariant
  rw [hv]
  exact ((countedStructBody_costs fs (fun f hf => (h f hf).legacy.dec) (fun f hf => (h f hf).legacy.dec)).bind
    (n' := 0) (w' := false) fun _ => Ct.Costs.ite (pure _) (of0 (Rd.Eats.lift _))).weak (by omega)

theorem readSized_total {size : VariantSize} {s b r : Bytes} (h : readSized size s = .ok (b, r)) : b.length + r.length ≤ s.length := by
  have ex : ∀ {n : Nat} {s b r : Bytes}, Rd.readExact n s = .ok (b, r) → b.length + r.length ≤ s.length := fun e => by
    rw [(readExact_split e).1, List.length_append]; exact Nat.le_refl _
  cases size with
  | inline => cases h; simp
  | fixed n => exact ex h
  | varlen =>
    obtain ⟨n, s1, h1, h2⟩ := Rd.bind_ok.1 h
    have := readVarlenLen_eats _ _ _ h1
    have := ex h2
    omega

theorem countedOptimisedVariant_costs (e : Entry) (tgt : Nat) (v : CountedVariant V) (fs : List φ) (hv : v.fields = fs.map d)
    (h : ∀ f ∈ fs, (d f).Costs Z R (k f)) : (countedOptimisedVariant e tgt v).Costs Z R (fs.map k).sum false := by
  unfold countedOptimisedVariant
  simp only [Ct.copy_calls]
  rw [hv]
  have assoc : ∀ {α β γ : Type} (m : Ct α) (f : α → Ct β) (g : β → Ct γ), (m >>= fun a => f a >>= g) = ((m >>= f) >>= g) := by
    intro α β γ m f g
    show Ct.mk _ = Ct.mk _
    congr
    funext s
    simp only [Ct.bind_run]
    rcases m s with ⟨k1, ⟨a, r⟩ | _ | _⟩
    · simp only
      rcases f a r with ⟨k2, ⟨b, r2⟩ | _ | _⟩
      · simp only [Nat.add_assoc]
      · rfl
      · rfl
    · rfl
    · rfl
  rw [assoc]
  refine ((within (countedAlive_costs fs h) (fun s b r hm => readSized_total hm) fun b => .inl ⟨b, Nat.le_refl _, rfl⟩).bind
    (n' := 0) (w' := false) fun _ => Ct.Costs.ite (pure _) (of0 (Rd.Eats.lift _))).weak (by omega)

theorem countedEnum_costs (cfg : Cfg) (e : Entry) (tgt : Nat) (vs : List (CountedVariant V)) {n : Nat}
    (h1 : ∀ v ∈ vs, (countedLegacyVariant e tgt v).Costs Z R n false)
    (h2 : ∀ v ∈ vs, (countedOptimisedVariant e tgt v).Costs Z R n false) :
    (countedEnum cfg e tgt vs).Costs Z R n false := by
  unfold countedEnum
  refine Ct.Costs.ite (((of0 readOptimisedTag_eats).bind (n' := n) (w' := false) fun p => ?_).weak (by omega))
    (((of0 (readU32_eats0 cfg)).bind (n' := n) (w' := false) fun x => ?_).weak (by omega))
  · rcases p with ⟨tag, sc⟩
    simp only
    generalize hf : (countedArms vs e.revision).find? _ = o
    cases o with
    | none => exact (Ct.Costs.fail _ false).weak (by omega)
    | some a => exact h2 _ (countedArms_mem (List.mem_of_find?_eq_some hf))
  · generalize hf : (countedArms vs e.revision).find? _ = o
    cases o with
    | none => exact (Ct.Costs.fail _ false).weak (by omega)
    | some a => exact h1 _ (countedArms_mem (List.mem_of_find?_eq_some hf))

theorem countedSkipEnum_costs (cfg : Cfg) {adv : Nat → Rd Unit} (hadv : ∀ n, (adv n).Eats 0) {skip : CountedField V → Ct Unit}
    (e : Entry) (tgt : Nat) (vs : List (CountedVariant V)) {n : Nat}
    (h : ∀ v ∈ vs, (countedSkipFields skip e.revision tgt v.fields).Costs Z R n false) :
    (countedSkipEnum cfg adv skip e tgt vs).Costs Z R n false := by
  unfold countedSkipEnum
  refine Ct.Costs.ite (((of0 readOptimisedTag_eats).bind (n' := n) (w' := false) fun p => ?_).weak (by omega))
    (((of0 (readU32_eats0 cfg)).bind (n' := n) (w' := false) fun x => ?_).weak (by omega))
  · rcases p with ⟨tag, sc⟩
    cases sc with
    | inline => exact (pure _).weak (by omega)
    | fixed => exact (of0 (hadv _)).weak (by omega)
    | varlen => exact ((of0 readVarlenLen_eats).bind fun _ => of0 (hadv _)).weak (by omega)
  · generalize hf : (countedArms vs e.revision).find? _ = o
    cases o with
    | none => exact (Ct.Costs.fail _ false).weak (by omega)
    | some a => exact h _ (countedArms_mem (List.mem_of_find?_eq_some hf))

theorem countedEnumC_costs (cfg : Cfg) (h : List Entry) (vs : List (CountedVariant V)) {n : Nat}
    (hv : ∀ v ∈ vs, ∃ fs : List φ, v.fields = fs.map d ∧ (∀ f ∈ fs, (d f).Costs Z R (k f)) ∧ (fs.map k).sum ≤ n)
    (hR : n + Z ≤ R) : (countedEnumC cfg h vs).Costs Z R 0 true := by
  have dec := countedDispatch_costs cfg h (fun e => countedEnum_costs cfg e (latest h) vs (n := n)
    (fun v hm => by obtain ⟨fs, e1, e2, e3⟩ := hv v hm; exact (countedLegacyVariant_costs e _ v fs e1 e2).weak e3)
    (fun v hm => by obtain ⟨fs, e1, e2, e3⟩ := hv v hm; exact (countedOptimisedVariant_costs e _ v fs e1 e2).weak e3)) hR
  refine ⟨dec, countedDispatch_costs cfg h (fun e => countedSkipEnum_costs cfg advance_eats0 e (latest h) vs fun v hm => ?_) hR,
    countedDispatch_costs cfg h (fun e => countedSkipEnum_costs cfg consume_eats e (latest h) vs fun v hm => ?_) hR,
    dec.discard⟩
  · obtain ⟨fs, e1, e2, e3⟩ := hv v hm
    rw [e1]
    exact (countedSkipFields_costs fs fun f h => (e2 f h).legacySkip).weak e3
  · obtain ⟨fs, e1, e2, e3⟩ := hv v hm
    rw [e1]
    exact (countedSkipFields_costs fs fun f h => (e2 f h).legacySkipS).weak e3

end

section
variable {ι : Type} {K : ι → Kind} [DecidableEq ι] {Z R : Nat}

theorem Counted.Costs.embed {V : Type} {c : Counted α} {n : Nat} {w : Bool} (h : c.Costs Z R n w) (inj : α → V) :
    (c.embed inj).Costs Z R n w :=
  ⟨(h.dec.bind fun _ => pure _).weaken (by omega) (by simp), h.skip, h.skipS, h.check⟩

theorem Field.counted_costs (cfg : Cfg) (I : Impls K) (n : Nat) (c : (i : ι) → Codec (Values K n i))
    (x : (i : ι) → Counted (Values K n i)) (hx : ∀ i, (x i).Costs Z R 1 true) (hR : 2 * Z ≤ R) (h8 : 8 ≤ R) (f : Field K)
    (hs : f.ty.solid = true) (hZ : f.ty.widest ≤ Z) : (f.counted cfg I n c x).Costs Z R f.ty.breadth :=
  ⟨.embed ((Ty.counted_costs cfg (I.env n c) x hx hR h8 f.ty hs hZ).cast (w' := false) (Nat.le_refl _) nofun) _,
    .embed (countedFixed_costs cfg (I.env n c) x hx hR h8 f.ty hs hZ) _,
    .embed (countedBulk_costs cfg (I.env n c) x hx hR h8 f.ty hs hZ) _,
    .embed (countedIndexed_costs cfg (I.env n c) x hx hR h8 f.ty hs hZ) _⟩

theorem Body.counted_costs (cfg : Cfg) (I : Impls K) (n : Nat) (c : (i : ι) → Codec (Values K n i))
    (x : (i : ι) → Counted (Values K n i)) (hx : ∀ i, (x i).Costs Z R 1 true) (hR : 2 * Z ≤ R) (h8 : 8 ≤ R) (h : List Entry) :
    {k : Kind} → (b : Body K k) → (∀ t ∈ b.types, t.solid = true) → b.Within Z → (b.counted cfg I n c x h).Costs Z R 1 true
  | _, .struct fs, hs, hb => by
    refine .call (countedStructC_costs (k := fun f => f.ty.breadth) cfg h fs (fun f hf => ?_) (by have := hb.1; unfold fieldsBreadth at this; omega))
    exact f.counted_costs cfg I n c x hx hR h8 (hs _ (List.mem_map_of_mem hf)) (hb.2 f hf)
  | _, .enum vs, hs, hb => by
    refine .call (countedEnumC_costs (n := Z) (d := fun f : Field K => f.counted cfg I n c x) (k := fun f => f.ty.breadth) cfg h _ (fun v hv => ?_) (by omega))
    obtain ⟨w, hw, rfl⟩ := List.mem_map.1 hv
    refine ⟨w.fields, rfl, fun f hf => ?_, (hb w hw).1⟩
    exact f.counted_costs cfg I n c x hx hR h8 (hs _ (List.mem_flatMap.2 ⟨w, hw, List.mem_map_of_mem hf⟩)) ((hb w hw).2 f hf)
  | _, .foreign i, _, hb => .leaf hb (by omega)

theorem Program.counted_costs (cfg : Cfg) (P : Program ι) (I : Impls P.kind) (hR : 2 * Z ≤ R) (h8 : 8 ≤ R)
    (hs : ∀ i, ∀ t ∈ (P.body i).types, t.solid = true) (hb : ∀ i, (P.body i).Within Z) :
    ∀ (n : Nat) (i : ι), (P.counted cfg I n i).Costs Z R 1 true
  | 0, _ => .leaf ⟨nofun, nofun, nofun, nofun⟩ (by omega)
  | n + 1, i => Body.counted_costs cfg I n _ _ (Program.counted_costs cfg P I hR h8 hs hb n) hR h8 (P.history i) (P.body i) (hs i) (hb i)

end

/-! ### Skipping optimised values -/

section
variable {ι : Type} {K : ι → Kind} [DecidableEq ι]

theorem Ct.Costs.free {m : Ct α} (h : m.Costs 0 0 0 false) (s : Bytes) : (Ct.tick 1 >>= fun _ => m : Ct α).steps s = 1 := by
  have := h.2 s
  show 1 + (m s).1 = 1
  omega

theorem countedDispatch_free (cfg : Cfg) (h : List Entry) {arm : Entry → Ct α} (ha : ∀ e ∈ h, (arm e).Costs 0 0 0 false) :
    (countedDispatch cfg h arm).Costs 0 0 0 false := by
  refine Ct.Costs.weak (n := 0 + 0) ((of0 ((readU16_eats cfg).weaken (by omega))).bind (w' := false) fun r => ?_) (by omega)
  generalize hf : h.find? (fun e => e.revision == r) = o
  cases o with
  | none => exact (Ct.Costs.fail _ false).weak (by omega)
  | some e => exact ha e (List.mem_of_find?_eq_some hf)

theorem Body.skip_optimised (cfg : Cfg) (I : Impls K) (n : Nat) (c : (i : ι) → Codec (Values K n i))
    (x : (i : ι) → Counted (Values K n i)) (h : List Entry) (hh : ∀ e ∈ h, e.optimised = true) :
    {k : Kind} → (∀ X, k ≠ .foreign X) → (b : Body K k) → (s : Bytes) →
    (b.counted cfg I n c x h).skip.steps s = 1 ∧ (b.counted cfg I n c x h).skipS.steps s = 1
  | _, _, .struct fs, s => by
    have key : ∀ {adv : Nat → Rd Unit} (hadv : ∀ n, (adv n).Eats 0) {V} (skip : CountedField V → Ct Unit) gs, ∀ e ∈ h,
        (countedSkipStruct adv skip e (latest h) gs).Costs 0 0 0 false := by
      intro adv hadv V skip gs e he
      unfold countedSkipStruct
      rw [hh e he]
      exact (of0 readVarlenLen_eats).bind fun _ => of0 (hadv _)
    exact ⟨(countedDispatch_free cfg h (key advance_eats0 _ _)).free s, (countedDispatch_free cfg h (key consume_eats _ _)).free s⟩
  | _, hk, .foreign i, _ => absurd rfl (hk _)
  | _, _, .enum vs, s => by
    have key : ∀ {adv : Nat → Rd Unit} (hadv : ∀ n, (adv n).Eats 0) {V} (skip : CountedField V → Ct Unit) gs, ∀ e ∈ h,
        (countedSkipEnum cfg adv skip e (latest h) gs).Costs 0 0 0 false := by
      intro adv hadv V skip gs e he
      unfold countedSkipEnum
      rw [hh e he]
      refine Ct.Costs.weak (n := 0 + 0) ((of0 readOptimisedTag_eats).bind (w' := false) fun p => ?_) (by omega)
      rcases p with ⟨tag, sc⟩
      cases sc with
      | inline => exact pure _
      | fixed => exact of0 (hadv _)
      | varlen => exact (of0 readVarlenLen_eats).bind fun _ => of0 (hadv _)
    exact ⟨(countedDispatch_free cfg h (key advance_eats0 _ _)).free s, (countedDispatch_free cfg h (key consume_eats _ _)).free s⟩

end

end Revision
