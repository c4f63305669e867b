import Verif.Spec.Program
import Verif.Proofs.ReadsDerive

/-! Helper lemmas: programs read the data of their older versions. -/

namespace Revision

variable {ι : Type}

theorem Codec.embed_reads {α β V W : Type} {inj' : β → W} {inj : α → V} {proj : V → Option α} {proj' : W → Option β}
    {o : Codec α} {n : Codec β} {mig : α → Option β} (h : o.Reads w n mig) :
    (o.embed inj proj).Reads w (n.embed inj' proj') (fun v => ((proj v).bind mig).map inj') where
  dec := by
    rintro v b ⟨a, ha, hv⟩ hb t
    simp only [Codec.embed, ha, Option.bind_some] at hb ⊢
    exact Rd.bind_map_ok? (h.dec a b hv hb t)
  skip := by
    rintro v b ⟨a, ha, hv⟩ hb t
    simp only [Codec.embed, ha] at hb ⊢
    exact h.skip a b hv hb t
  skipS := by
    rintro v b ⟨a, ha, hv⟩ hb t
    simp only [Codec.embed, ha] at hb ⊢
    exact h.skipS a b hv hb t
  check := by
    rintro v b ⟨a, ha, hv⟩ hb t
    simp only [Codec.embed, ha, Option.bind_some] at hb ⊢
    rw [h.check a b hv hb t]
    cases mig a <;> rfl

section
variable {K : ι → Kind} [DecidableEq ι]

/-- What the writer and the reader have in common below depths `n` and `m`. -/
structure Below (w : Bool) (I I' : Impls K) (n m : Nat) (c : (i : ι) → Codec (Values K n i))
    (c' : (i : ι) → Codec (Values K m i)) (g : (i : ι) → Values K n i → Option (Values K m i)) : Prop where
  cap : ∀ t k, I.cap t k = true → I'.cap t k = true
  reads : ∀ i, (c i).Reads w (c' i) (g i)

variable {cfg : Cfg} {I I' : Impls K} {n m : Nat} {c : (i : ι) → Codec (Values K n i)}
  {c' : (i : ι) → Codec (Values K m i)} {g : (i : ι) → Values K n i → Option (Values K m i)}

theorem Field.migrateValue_plain (f : Field K) (v : DynAt K n) :
    f.migrateValue cfg I I' n m c c' g false v =
      ((Dyn.proj (E := I.env n c) f.ty v).bind (f.ty.migrate (I.env n c) (I'.env m c') g)).map fun b => ⟨f.ty, b⟩ := by
  unfold Field.migrateValue
  cases Dyn.proj (E := I.env n c) f.ty v <;> rfl

theorem Field.migrateValue_legacy (f : Field K) (b : Bool) (hb : (b && f.isIndexed) = false) (v : DynAt K n) :
    f.migrateValue cfg I I' n m c c' g b v = f.migrateValue cfg I I' n m c c' g false v := by
  unfold Field.migrateValue
  rw [hb]
  rfl

theorem Field.plain_reads (h : Below w I I' n m c c' g) (f : Field K) :
    (f.decl cfg I n c).plain.Reads w (f.decl cfg I' m c').plain (f.migrateValue cfg I I' n m c c' g false) :=
  (Codec.embed_reads (Ty.codec_reads cfg (E := I.env n c) (E' := I'.env m c') h.cap g h.reads f.ty)).mono
    fun v _ => (f.migrateValue_plain v).symm

theorem Field.fixed_reads (h : Below w I I' n m c c' g) (f : Field K) :
    (f.decl cfg I n c).fixedLe.Reads w (f.decl cfg I' m c').fixedLe (f.migrateValue cfg I I' n m c c' g false) :=
  (Codec.embed_reads (fixedOf_reads cfg (E := I.env n c) (E' := I'.env m c') h.cap g h.reads f.ty)).mono
    fun v _ => (f.migrateValue_plain v).symm

theorem Field.bulk_reads (h : Below w I I' n m c c' g) (f : Field K) :
    (f.decl cfg I n c).bulk.Reads w (f.decl cfg I' m c').bulk (f.migrateValue cfg I I' n m c c' g false) :=
  (Codec.embed_reads (bulkOf_reads cfg (E := I.env n c) (E' := I'.env m c') h.cap g h.reads f.ty)).mono
    fun v _ => (f.migrateValue_plain v).symm

theorem Field.indexed_reads (h : Below w I I' n m c c' g) (f : Field K) (hi : f.isIndexed = true) :
    (f.decl cfg I n c).indexed.Reads w (f.decl cfg I' m c').indexed (f.migrateValue cfg I I' n m c c' g true) := by
  refine (Codec.embed_reads (indexedOf_reads cfg (E := I.env n c) (E' := I'.env m c') h.cap g h.reads f.ty)).mono
    fun v _ => ?_
  unfold Field.migrateValue
  rw [hi]
  cases Dyn.proj (E := I.env n c) f.ty v <;> rfl

/-- The step of a field. -/
def Field.step (cfg : Cfg) (I I' : Impls K) (n m : Nat) (c : (i : ι) → Codec (Values K n i))
    (c' : (i : ι) → Codec (Values K m i)) (g : (i : ι) → Values K n i → Option (Values K m i)) (b : Bool)
    (f : Field K) : FieldStep (DynAt K n) (DynAt K m) :=
  ⟨f.decl cfg I n c, f.decl cfg I' m c', f.migrateValue cfg I I' n m c c' g b⟩

theorem Field.step_legacy (h : Below w I I' n m c c' g) (f : Field K) (hs : f.Skippable cfg) :
    (f.step cfg I I' n m c c' g false).LegacyReads w := by
  have hp := Field.plain_reads (cfg := cfg) h f
  have hf := Field.fixed_reads (cfg := cfg) h f
  have hb := Field.bulk_reads (cfg := cfg) h f
  have hbp : f.opts.specialised = true → (f.decl cfg I n c).bulk = (f.decl cfg I n c).plain := by
    intro hsp
    rcases hs with hs | hs
    · show dynC f.ty (bulkOf cfg _ f.ty) = dynC f.ty (f.ty.codec cfg _)
      congr 1
      cases cfg with
      | mk fw sp =>
        simp only at hs
        subst hs
        cases f.ty <;> rfl
    · rw [hs] at hsp; cases hsp
  have e1 : (f.decl cfg I n c).opts = f.opts := rfl
  have e2 : (f.decl cfg I' m c').opts = f.opts := rfl
  by_cases hfx : f.opts.fixed
  · refine ⟨?_, ?_, ?_⟩ <;>
      simp only [Field.step, FieldDecl.legacyC, FieldDecl.legacySkip, FieldDecl.legacySkipS, e1, e2, if_pos hfx]
    · exact hf.dec
    · exact hf.skip
    · exact hf.skip
  · by_cases hsp : f.opts.specialised
    · refine ⟨?_, ?_, ?_⟩ <;>
        simp only [Field.step, FieldDecl.legacyC, FieldDecl.legacySkip, FieldDecl.legacySkipS, e1, e2, if_neg hfx,
          if_pos hsp]
      · exact hb.dec
      · rw [hbp hsp]; exact hp.skip
      · rw [hbp hsp]; exact hp.skipS
    · refine ⟨?_, ?_, ?_⟩ <;>
        simp only [Field.step, FieldDecl.legacyC, FieldDecl.legacySkip, FieldDecl.legacySkipS, e1, e2, if_neg hfx,
          if_neg hsp]
      · exact hp.dec
      · exact hp.skip
      · exact hp.skipS

/-! ### Older versions -/

theorem filterMap_map_comm {f : α → Option α} {f' : β → Option β} {m : α → β}
    (h : ∀ a, (f a).map m = f' (m a)) (l : List α) : (l.filterMap f).map m = (l.map m).filterMap f' := by
  induction l with
  | nil => rfl
  | cons a l ih =>
    rw [List.filterMap_cons, List.map_cons, List.filterMap_cons, ← h a]
    cases f a with
    | none => exact ih
    | some b => simp only [Option.map_some, List.map_cons, ih]

theorem Field.decl_asOf (r : Nat) (fs : List (Field K)) :
    (fs.filterMap (Field.asOf r)).map (·.decl cfg I n c) = fieldsAsOf r (fs.map (·.decl cfg I n c)) := by
  refine filterMap_map_comm (fun f => ?_) fs
  unfold Field.asOf FieldDecl.asOf
  show Option.map _ (if f.opts.start.getD 0 ≤ r then _ else _) = if f.opts.start.getD 0 ≤ r then _ else _
  split <;> rfl

theorem Variant.decl_asOf (r : Nat) (vs : List (Variant K)) :
    (vs.filterMap (Variant.asOf r)).map (·.decl cfg I n c) = variantsAsOf r (vs.map (·.decl cfg I n c)) := by
  refine filterMap_map_comm (fun v => ?_) vs
  unfold Variant.asOf VariantDecl.asOf
  show Option.map _ (if v.opts.start.getD 0 ≤ r then _ else _) = if v.opts.start.getD 0 ≤ r then _ else _
  split
  · simp only [Option.map_some, Variant.decl, Field.decl_asOf]
  · rfl

theorem migrateLive_map {alive : F → Bool} {mig : F → V → Option W} {alive' : F' → Bool}
    {mig' : F' → V → Option W} (m : F' → F) (ha : ∀ f, alive (m f) = alive' f) (hm : ∀ f, mig (m f) = mig' f) :
    ∀ (fs : List F') (vs : List V), migrateLive alive mig (fs.map m) vs = migrateLive alive' mig' fs vs
  | [], vs => rfl
  | f :: fs, vs => by
    rw [List.map_cons, migrateLive.eq_def _ _ (m f :: _), migrateLive.eq_def _ _ (f :: _)]
    simp only [ha, hm, migrateLive_map m ha hm fs]

/-- One type, given the types its fields use. -/
theorem Field.migration_eq' (f : Field K) : f.migration cfg I n c = f.decl cfg I n c := by
  have h1 : (f.migration cfg I n c).dflt = (f.decl cfg I n c).dflt := by
    funext r
    simp only [Field.migration, Field.decl, tyField]
    cases f.dflt n r <;> rfl
  have h2 : (f.migration cfg I n c).convert = (f.decl cfg I n c).convert := by
    funext r v this
    simp only [Field.migration, Field.decl, tyField]
    cases Dyn.proj (E := I.env n c) f.ty v <;> rfl
  have e : ∀ a b : FieldDecl (DynAt K n), a.name = b.name → a.opts = b.opts → a.plain = b.plain →
      a.fixedLe = b.fixedLe → a.bulk = b.bulk → a.indexed = b.indexed → a.dflt = b.dflt → a.convert = b.convert →
      a = b := by
    intro ⟨_, _, _, _, _, _, _, _⟩ ⟨_, _, _, _, _, _, _, _⟩
    rintro rfl rfl rfl rfl rfl rfl rfl rfl
    rfl
  exact e _ _ rfl rfl rfl rfl rfl rfl h1 h2

theorem Field.migration_eq (fs : List (Field K)) :
    fs.map (fun f => f.migration cfg I n c) = fs.map (fun f => f.decl cfg I n c) :=
  List.map_congr_left fun f _ => f.migration_eq'

theorem Variant.migration_eq (vs : List (Variant K)) :
    vs.map (fun v => v.migration cfg I n c) = vs.map (fun v => v.decl cfg I n c) :=
  List.map_congr_left fun v _ => by
    unfold Variant.migration Variant.decl
    rw [Field.migration_eq]

theorem Body.reads (h : Below w I I' n m c c' g) (hist : List Entry) (hh : ValidHistory hist) (k : Nat)
    (h1 : 1 ≤ k) (h2 : k ≤ hist.length) : {kind : Kind} → (body : Body K kind) →
    body.Readable cfg (lastEntry (hist.take k)) hist.length →
    ((body.asOf k).codec cfg I n c (hist.take k)).Reads w (body.codec cfg I' m c' hist)
      (body.migrate cfg I I' n m c c' g (lastEntry (hist.take k)) hist.length)
  | _, .struct fs, hR => by
    have hrev : (lastEntry (hist.take k)).revision = k := by
      have := hh.revision_get (hh.lastEntry_take h1 h2)
      omega
    obtain ⟨hn, hx, hsk⟩ := hR
    rw [hrev] at hn hx
    have key := structC_reads (w := w) cfg hist hh
      (fs.map fun f => f.step cfg I I' n m c c' g (lastEntry (hist.take k)).optimised) k h1 h2 ?_ ?_ ?_ ?_
    · rw [List.map_map, List.map_map] at key
      show (structC cfg (hist.take k) ((fs.filterMap (Field.asOf k)).map _)).Reads w _ _
      rw [Field.decl_asOf]
      refine key.mono fun vs _ => ?_
      unfold Body.migrate
      dsimp only
      rw [Field.migration_eq]
      rw [migrateLive_map (alive' := fun f : Field K => f.existsAt k)
        (mig' := Field.migrateValue cfg I I' n m c c' g (lastEntry (hist.take k)).optimised)
        (fun f => f.step cfg I I' n m c c' g (lastEntry (hist.take k)).optimised)
        (fun f => rfl) (fun f => rfl), hrev]
      rfl
    · intro s hs
      obtain ⟨f, _, rfl⟩ := List.mem_map.1 hs
      exact ⟨rfl, rfl⟩
    · intro ho s hs
      obtain ⟨f, hf, rfl⟩ := List.mem_map.1 hs
      rw [ho]
      exact f.step_legacy h (hsk ho f hf)
    · intro ho s hs hex v b hv hb t
      obtain ⟨f, hf, rfl⟩ := List.mem_map.1 hs
      have hex' : f.existsAt k = true := hex
      have ei : (f.decl cfg I n c).isIndexed = f.isIndexed := rfl
      have ei' : (f.decl cfg I' m c').isIndexed = f.isIndexed := rfl
      have ee : (f.decl cfg I' m c').existsAt hist.length = f.existsAt hist.length := rfl
      simp only [Field.step, FieldDecl.optimisedC, ei, ei', ee, ho] at hv hb ⊢
      by_cases hi : f.isIndexed
      · rw [if_pos hi] at hv hb
        have hlive : f.existsAt hist.length = true := by
          cases hl : f.existsAt hist.length with
          | true => rfl
          | false => rw [hx ho f hf hex' hl] at hi; cases hi
        rw [if_pos hlive, if_pos hi]
        exact (f.indexed_reads h hi).dec v b hv hb t
      · rw [if_neg hi] at hv hb
        rw [if_neg hi, ite_self, Field.migrateValue_legacy f true (by simpa using hi)]
        exact (f.plain_reads h).dec v b hv hb t
    · unfold DistinctFieldNames at hn
      unfold DistinctNames
      rw [List.map_map, List.filter_map, List.map_map]
      exact hn
  | _, .enum vs, hR => by
    have hrev : (lastEntry (hist.take k)).revision = k := by
      have := hh.revision_get (hh.lastEntry_take h1 h2)
      omega
    obtain ⟨hA, hx, hn, hsk⟩ := hR
    have key := enumC_reads (w := w) cfg hist hh (vs.map fun v => (⟨v.ident, v.opts,
      v.fields.map fun f => f.step cfg I I' n m c c' g false, v.convert n, v.convert m⟩ : VariantStep (DynAt K n) (DynAt K m)))
      k h1 h2 ?_ ?_ ?_ ?_ ?_ ?_
    · have eo : (vs.map fun v => (⟨v.ident, v.opts,
          v.fields.map fun f => f.step cfg I I' n m c c' g false, v.convert n, v.convert m⟩ : VariantStep (DynAt K n) (DynAt K m))).map
          VariantStep.old = vs.map (·.decl cfg I n c) := by
        rw [List.map_map]
        refine List.map_congr_left fun v _ => ?_
        simp only [Function.comp, VariantStep.old, Variant.decl, List.map_map]
        rfl
      have en : (vs.map fun v => (⟨v.ident, v.opts,
          v.fields.map fun f => f.step cfg I I' n m c c' g false, v.convert n, v.convert m⟩ : VariantStep (DynAt K n) (DynAt K m))).map
          VariantStep.new = vs.map (·.decl cfg I' m c') := by
        rw [List.map_map]
        refine List.map_congr_left fun v _ => ?_
        simp only [Function.comp, VariantStep.new, Variant.decl, List.map_map]
        rfl
      rw [eo, en] at key
      show (enumC cfg (hist.take k) ((vs.filterMap (Variant.asOf k)).map _)).Reads w _ _
      rw [Variant.decl_asOf]
      refine key.mono fun x _ => ?_
      unfold Body.migrate migrateVariantLive
      dsimp only
      rw [Variant.migration_eq]
      rw [hrev, List.filter_map, List.find?_map]
      simp only [Function.comp_def]
      have ef : (vs.filter fun v => (⟨v.ident, v.opts, v.fields.map fun f => f.step cfg I I' n m c c' g false,
          v.convert n, v.convert m⟩ : VariantStep (DynAt K n) (DynAt K m)).new.existsAt k) = vs.filter fun v => v.existsAt k :=
        rfl
      rw [ef]
      cases (vs.filter fun v => v.existsAt k).find? (fun v => v.ident == x.variant) with
      | none => rfl
      | some v =>
        simp only [Option.map_some, Option.bind_some]
        rw [migrateLive_map (alive' := fun f : Field K => f.existsAt k)
          (mig' := Field.migrateValue cfg I I' n m c c' g false)
          (fun f => f.step cfg I I' n m c c' g false) (fun f => rfl) (fun f => rfl), Option.bind_map]
        rfl
    · intro s hs f hf
      obtain ⟨v, _, rfl⟩ := List.mem_map.1 hs
      obtain ⟨f, _, rfl⟩ := List.mem_map.1 hf
      exact ⟨rfl, rfl⟩
    · have es : ((vs.map fun v => (⟨v.ident, v.opts,
          v.fields.map fun f => f.step cfg I I' n m c c' g false, v.convert n, v.convert m⟩ : VariantStep (DynAt K n) (DynAt K m))).map
          VariantStep.new).map VariantDecl.sig = vs.map Variant.sig := by
        rw [List.map_map, List.map_map]
        refine List.map_congr_left fun v _ => ?_
        simp only [Function.comp, VariantStep.new, VariantDecl.sig, Variant.sig, List.map_map]
        rfl
      exact ⟨es ▸ hA.distinct, es ▸ hA.discs, es ▸ hA.optimised⟩
    · intro ho s hs f hf
      obtain ⟨v, hv, rfl⟩ := List.mem_map.1 hs
      obtain ⟨f, hf', rfl⟩ := List.mem_map.1 hf
      exact f.step_legacy h (hsk ho v hv f hf')
    · intro ho s hs f hf
      obtain ⟨v, hv, rfl⟩ := List.mem_map.1 hs
      obtain ⟨f, hf, rfl⟩ := List.mem_map.1 hf
      exact f.plain_reads h
    · intro ho s hs hex
      obtain ⟨v, hv, rfl⟩ := List.mem_map.1 hs
      have := hn ho v hv (by rw [hrev]; exact hex)
      rw [hrev] at this
      unfold DistinctFieldNames at this
      unfold DistinctNames
      simp only [VariantStep.new, List.map_map, List.filter_map]
      exact this
    · intro ho s hs hex f hf
      obtain ⟨v, hv, rfl⟩ := List.mem_map.1 hs
      simp only [VariantStep.new, List.map_map] at hf
      obtain ⟨f, hf', rfl⟩ := List.mem_map.1 hf
      have := hx ho v hv (by rw [hrev]; exact hex) f hf'
      rw [hrev] at this
      exact this
  | _, .foreign x, _ =>
    { dec := fun v b hv hb t => by
        show (x.codec.dec (b ++ t)).ok? = _
        rw [x.faithful.round_trip v b hv hb t]
        rfl
      skip := fun v b hv hb t => .ok (x.faithful.skip_after v b hv hb t)
      skipS := fun v b hv hb t => .ok (x.faithful.skipS_after v b hv hb t)
      check := fun v b hv hb t => by
        show (x.codec.check (b ++ t)).ok? = _
        rw [x.faithful.check_after v b hv hb t]
        rfl }

end

/-- Every type at every depth. -/
theorem Program.reads [DecidableEq ι] (cfg : Cfg) (P : Program ι) (I I' : Impls P.kind) (r : ι → Nat)
    (hP : P.Readable cfg r) (hcap : ∀ t k, I.cap t k = true → I'.cap t k = true) : ∀ (n m : Nat) (_ : n ≤ m) (i : ι),
    ((P.asOf r).codec cfg I n i).Reads w (P.codec cfg I' m i) (P.migrate cfg I I' r n m i)
  | 0, _, _, _ => ⟨fun v => Empty.elim v, fun v => Empty.elim v, fun v => Empty.elim v, fun v => Empty.elim v⟩
  | n + 1, 0, h, _ => absurd h (Nat.not_succ_le_zero n)
  | n + 1, m + 1, h, i =>
    Body.reads ⟨hcap, Program.reads cfg P I I' r hP hcap n m (Nat.le_of_succ_le_succ h)⟩ (P.history i) (hP.history i)
      (r i) (hP.lower i) (hP.upper i) (P.body i) (hP.body i)

end Revision
