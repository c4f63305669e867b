import Verif.Proofs.Program

/-! Helper lemmas: the codecs of programs are faithful. -/

namespace Revision

theorem Codec.Reads.faithful_of {o n : Codec α} {mig : α → Option α} (h : o.Reads false n mig) (he : o.enc = n.enc)
    (hv : ∀ v, n.valid v → o.valid v) (hm : ∀ v, n.valid v → mig v = some v) : n.Faithful where
  round_trip v b hval hb t := by
    have := h.dec v b (hv v hval) (by rw [he]; exact hb) t
    rw [hm v hval] at this
    generalize n.dec (b ++ t) = r at *
    cases r <;> simp [Res.ok?] at this ⊢
    exact this
  skip_after v b hval hb t := (h.skip v b (hv v hval) (by rw [he]; exact hb) t).strict
  skipS_after v b hval hb t := (h.skipS v b (hv v hval) (by rw [he]; exact hb) t).strict
  check_after v b hval hb t := by
    have := h.check v b (hv v hval) (by rw [he]; exact hb) t
    rw [hm v hval] at this
    generalize n.check (b ++ t) = r at *
    cases r <;> simp [Res.ok?] at this ⊢
    exact this

theorem migrateAll_eq {g : α → Option α} : ∀ {l : List α}, (∀ a ∈ l, g a = some a) → migrateAll g l = some l
  | [], _ => rfl
  | a :: l, h => by
    rw [migrateAll, h a (List.mem_cons_self ..), migrateAll_eq fun b hb => h b (List.mem_cons_of_mem _ hb)]
    rfl

theorem migratePair_eq {f : α → Option α} {g : β → Option β} {p : α × β} (h1 : f p.1 = some p.1)
    (h2 : g p.2 = some p.2) : migratePair f g p = some p := by
  unfold migratePair
  rw [h1, h2]
  rfl

section
variable {ι : Type} {E : Env ι}

/-- Migrating nothing changes nothing. -/
theorem Ty.migrate_some (cfg : Cfg) (t : Ty ι) :
    ∀ v, (t.codec cfg E).valid v → t.migrate E E (fun _ => some) v = some v := by
  induction t with
  | unit | bool | int | float | char | string | path | bytes | uuid | duration | systemTime | notNan | ext =>
    intro v _; rfl
  | option t ih =>
    intro v hv
    cases v with
    | none => rfl
    | some a => simp only [Ty.migrate, migrateOption, ih a hv, Option.map_some]
  | result t e iht ihe =>
    intro v hv
    cases v with
    | ok a => simp only [Ty.migrate, migrateResult, iht a hv, Option.map_some]
    | error a => simp only [Ty.migrate, migrateResult, ihe a hv, Option.map_some]
  | bound t ih =>
    intro v hv
    cases v with
    | unbounded => rfl
    | included a => simp only [Ty.migrate, migrateBound, ih a hv, Option.map_some]
    | excluded a => simp only [Ty.migrate, migrateBound, ih a hv, Option.map_some]
  | wrap t ih => exact ih
  | pair s t ihs iht => exact fun v hv => migratePair_eq (ihs _ hv.1) (iht _ hv.2)
  | array k t ih => exact fun l hl => migrateAll_eq fun a ha => ih a (hl.2 a ha)
  | vec t ih =>
    intro l hl
    show migrateAll _ l = _
    have key : (vecC cfg (E.cap t) (t.codec cfg E)).valid l → migrateAll (t.migrate E E fun _ => some) l = some l :=
      fun h => migrateAll_eq fun a ha => ih a (h.2.2 a ha)
    cases t <;> first | exact migrateAll_some l | exact key hl
  | btreeMap k v ihk ihv =>
    intro l hl
    simp only [Ty.migrate]
    rw [migrateAll_eq fun a ha => migratePair_eq (ihk _ (hl.2.2.1 a ha).1) (ihv _ (hl.2.2.1 a ha).2), Option.map_some,
      btreeBuild_fix _ _ l hl.2.2.2]
  | btreeSet k ih =>
    intro l hl
    simp only [Ty.migrate]
    rw [migrateAll_eq fun a ha => ih _ (hl.2.2.1 a ha), Option.map_some, btreeBuild_fix (E.cmp k) id l (by simpa using hl.2.2.2)]
  | hashMap k v ihk ihv =>
    intro l hl
    simp only [Ty.migrate]
    rw [migrateAll_eq fun a ha => migratePair_eq (ihk _ (hl.2.2.1 a ha).1) (ihv _ (hl.2.2.1 a ha).2), Option.map_some]
    exact congrArg some (by simpa using hash_foldl_fix l [] (by simpa using hl.2.2.2))
  | hashSet k ih =>
    intro l hl
    simp only [Ty.migrate]
    rw [migrateAll_eq fun a ha => ih _ (hl.2.2.1 a ha), Option.map_some]
    exact congrArg some (by simpa using hashSet_foldl_fix l [] (by simpa using hl.2.2.2))
  | vector t ih =>
    intro l hl
    simp only [Ty.migrate]
    rw [migrateAll_eq fun a ha => ih _ (hl.2.2.1 a ha)]
  | binaryHeap t ih =>
    intro l hl
    simp only [Ty.migrate]
    rw [migrateAll_eq fun a ha => ih _ (hl.2.2.1 a ha), Option.map_some]
    exact congrArg some (by simpa using heap_foldl_fix (cmp := E.cmp t) l [] (by simpa using hl.2.2.2))

theorem Ty.codec_faithful_of (cfg : Cfg) (hx : ∀ i, (E.extC i).Faithful)
    (t : Ty ι) : (t.codec cfg E).Faithful :=
  (Ty.codec_reads cfg (E := E) (E' := E) (fun _ _ h => h) (fun _ => some) (fun i => (hx i).reads) t).faithful
    (t.migrate_some cfg)

theorem fixedOf_faithful_of (cfg : Cfg) (hx : ∀ i, (E.extC i).Faithful)
    (t : Ty ι) : (fixedOf cfg E t).Faithful := by
  cases t <;> first
    | exact (fixedIntC_lawful cfg _).faithful (fixedIntC_checks cfg _)
    | exact Ty.codec_faithful_of cfg hx _

theorem bulkOf_faithful_of (cfg : Cfg) (hx : ∀ i, (E.extC i).Faithful)
    (t : Ty ι) : (bulkOf cfg E t).Faithful := by
  have hr := bulkOf_reads (w := false) cfg (E := E) (E' := E) (fun _ _ h => h) (fun _ => some) (fun i => (hx i).reads) t
  cases t with
  | vec t =>
    refine hr.faithful fun l hl => ?_
    show migrateAll _ l = _
    have key : (vecC cfg (E.cap t) (t.codec cfg E)).valid l → migrateAll (t.migrate E E fun _ => some) l = some l :=
      fun h => migrateAll_eq fun a ha => t.migrate_some cfg a (h.2.2 a ha)
    cases t <;> first | exact migrateAll_some l | exact key hl
  | _ => exact Ty.codec_faithful_of cfg hx _

theorem indexedOf_faithful_of (cfg : Cfg) (htrans : ∀ t, Std.TransCmp (E.cmp t)) (hx : ∀ i, (E.extC i).Faithful)
    (t : Ty ι) : (indexedOf cfg E t).Faithful := by
  have hf := fun t => Ty.codec_faithful_of cfg hx t
  cases t with
  | btreeMap k v =>
    have := htrans k
    exact indexedBTreeMapC_faithful (hf k) (hf v) _ _ _
  | hashMap k v => exact indexedHashMapC_faithful (hf k) (hf v) _ _ _ _
  | vec t | vector t => exact indexedSeqC_faithful (hf t) _
  | btreeSet k =>
    have := htrans k
    exact indexedBTreeSetC_faithful (hf k) _ _
  | hashSet k => exact indexedHashSetC_faithful (hf k) _ _
  | _ => exact hf _

end

/-! ### Derived types -/

theorem migrateLive_some {alive : F → Bool} : ∀ (fs : List F) (vs : List V),
    vs.length = (fs.filter alive).length → migrateLive alive (fun _ => some) fs vs = some vs
  | [], vs, h => by
    cases vs with
    | nil => rfl
    | cons v vs => simp at h
  | f :: fs, vs, h => by
    rw [migrateLive.eq_def]
    simp only
    by_cases hf : alive f
    · rw [if_pos hf]
      rw [List.filter_cons_of_pos hf] at h
      cases vs with
      | nil => simp at h
      | cons v vs =>
        simp only [migrateLive_some fs vs (by simpa using h)]
        rfl
    · rw [if_neg hf]
      rw [List.filter_cons_of_neg hf] at h
      exact migrateLive_some fs vs h

/-- Reading and skipping a field of the ordinary format. -/
structure FieldDecl.LegacyFaithful (f : FieldDecl V) : Prop where
  dec : ∀ v b, f.legacyC.valid v → f.legacyC.enc v = .ok b → ∀ t, f.legacyC.dec (b ++ t) = .ok (v, t)
  skip : ∀ v b, f.legacyC.valid v → f.legacyC.enc v = .ok b → ∀ t, f.legacySkip (b ++ t) = .ok ((), t)
  skipS : ∀ v b, f.legacyC.valid v → f.legacyC.enc v = .ok b → ∀ t, f.legacySkipS (b ++ t) = .ok ((), t)

theorem FieldDecl.LegacyFaithful.step {f : FieldDecl V} (h : f.LegacyFaithful) :
    (⟨f, f, some⟩ : FieldStep V V).LegacyReads false :=
  ⟨fun v b hv hb t => by rw [h.dec v b hv hb t]; rfl, fun v b hv hb t => .ok (h.skip v b hv hb t),
    fun v b hv hb t => .ok (h.skipS v b hv hb t)⟩

theorem structC_faithful (cfg : Cfg) (h : List Entry) (hh : ValidHistory h) (fs : List (FieldDecl V))
    (hleg : (lastEntry h).optimised = false → ∀ f ∈ fs, f.LegacyFaithful)
    (hopt : (lastEntry h).optimised = true → ∀ f ∈ fs, f.optimisedC.Faithful)
    (hn : DistinctNames fs h.length h.length) : (structC cfg h fs).Faithful := by
  have hpos : 1 ≤ h.length := List.length_pos_iff.2 hh.nonempty
  have hrev := hh.lastEntry_revision
  have hlat := hh.latest_eq
  have h64 : h.length < 2 ^ 64 - 1 := by have := hh.fits; omega
  have hm1 : (fs.map fun f => (⟨f, f, some⟩ : FieldStep V V)).map (·.new) = fs := by
    rw [List.map_map]; exact List.map_id' fs
  have hm2 : (fs.map fun f => (⟨f, f, some⟩ : FieldStep V V)).map (·.old) = fs := by
    rw [List.map_map]; exact List.map_id' fs
  have key := structC_reads (w := false) cfg h hh (fs.map fun f => ⟨f, f, some⟩) h.length hpos (Nat.le_refl _) ?_ ?_ ?_ ?_
  · rw [hm1, hm2, List.take_length] at key
    refine key.faithful_of ?_ ?_ ?_
    · funext vs
      unfold structC
      simp only [← hrev]
      rw [serializeStructBody_asOf _ (by rw [hrev]; exact h64)]
    · intro vs hv
      unfold structC at hv ⊢
      simp only [hlat] at hv ⊢
      exact (validFields_asOf h64 _ fs vs).2 hv
    · intro vs hv
      unfold structC at hv
      simp only [hlat] at hv
      have hv := (validFields_iff _ _).1 hv
      rw [migrateLive_map (alive' := fun f : FieldDecl V => f.existsAt h.length) (mig' := fun _ => some)
        (fun f => (⟨f, f, some⟩ : FieldStep V V)) (fun _ => rfl) (fun _ => rfl),
        migrateLive_some fs vs hv.length_eq, Option.bind_some, migrate_same fs vs hv]
      rfl
  · intro s hs
    obtain ⟨f, _, rfl⟩ := List.mem_map.1 hs
    exact ⟨rfl, rfl⟩
  · rw [List.take_length]
    intro ho s hs
    obtain ⟨f, hf, rfl⟩ := List.mem_map.1 hs
    exact (hleg ho f hf).step
  · rw [List.take_length]
    intro ho s hs hex v b hv hb t
    obtain ⟨f, hf, rfl⟩ := List.mem_map.1 hs
    have hex : f.existsAt h.length = true := hex
    simp only [hex, if_true]
    rw [(hopt ho f hf).round_trip v b hv hb t]
    rfl
  · rw [hm1]; exact hn

theorem enumC_faithful (cfg : Cfg) (h : List Entry) (hh : ValidHistory h) (vs : List (VariantDecl V))
    (hA : AcceptedEnum (lastEntry h) vs)
    (hleg : (lastEntry h).optimised = false → ∀ v ∈ vs, ∀ f ∈ v.fields, f.LegacyFaithful)
    (hopt : (lastEntry h).optimised = true → ∀ v ∈ vs, ∀ f ∈ v.fields, f.plain.Faithful)
    (hn : (lastEntry h).optimised = false → ∀ v ∈ vs, v.existsAt h.length = true →
      DistinctNames v.fields h.length h.length) : (enumC cfg h vs).Faithful := by
  have hpos : 1 ≤ h.length := List.length_pos_iff.2 hh.nonempty
  have hrev := hh.lastEntry_revision
  have h64 : h.length < 2 ^ 64 - 1 := by have := hh.fits; omega
  let st : VariantDecl V → VariantStep V V := fun v => ⟨v.ident, v.opts, v.fields.map fun f => ⟨f, f, some⟩, v.convert, v.convert⟩
  have hnew : ∀ v : VariantDecl V, (st v).new = v := by
    intro v
    simp only [st, VariantStep.new, List.map_map]
    congr 1
    exact List.map_id' _
  have hold : ∀ v : VariantDecl V, (st v).old = v := by
    intro v
    simp only [st, VariantStep.old, List.map_map]
    congr 1
    exact List.map_id' _
  have hm1 : (vs.map st).map VariantStep.new = vs := by
    rw [List.map_map]; exact (List.map_congr_left fun v _ => hnew v).trans (List.map_id' vs)
  have hm2 : (vs.map st).map VariantStep.old = vs := by
    rw [List.map_map]; exact (List.map_congr_left fun v _ => hold v).trans (List.map_id' vs)
  have key := enumC_reads (w := false) cfg h hh (vs.map st) h.length hpos (Nat.le_refl _) ?_ ?_ ?_ ?_ ?_ ?_
  · rw [hm1, hm2, List.take_length] at key
    refine key.faithful_of ?_ ?_ ?_
    · funext x
      unfold enumC
      simp only
      have := serializeEnumBody_asOf cfg (lastEntry h) (by rw [hrev]; exact h64) vs x
      rw [hrev] at this
      rw [this]
    · intro x hv
      unfold enumC at hv ⊢
      simp only at hv ⊢
      have := validEnum_asOf (lastEntry h) (by rw [hrev]; exact h64) vs x
      rw [hrev] at this
      exact this.2 hv
    · intro x hv
      obtain ⟨d, v, hm, hi, hvf, _⟩ := hv
      have hm' := mem_variantArms.1 hm
      rw [hrev] at hvf hm'
      have hvf := (validFields_iff _ _).1 hvf
      have hfind := aliveVariants_find hA hm'.1 (by rw [hrev]; exact hm'.2.1)
      rw [hrev, hi] at hfind
      have e1 : migrateVariantLive h.length (vs.map st) x = some x := by
        unfold migrateVariantLive
        rw [List.filter_map, List.find?_map]
        have ef : vs.filter ((fun s : VariantStep V V => s.new.existsAt h.length) ∘ st) = aliveVariants vs h.length := by
          unfold aliveVariants
          exact List.filter_congr fun v _ => by simp only [Function.comp, hnew]
        rw [ef]
        have eg : ((fun s : VariantStep V V => s.ident == x.variant) ∘ st) = fun v => v.ident == x.variant := rfl
        rw [eg, hfind]
        simp only [Option.map_some, st]
        rw [migrateLive_map (alive' := fun f : FieldDecl V => f.existsAt h.length) (mig' := fun _ => some)
          (fun f => (⟨f, f, some⟩ : FieldStep V V)) (fun _ => rfl) (fun _ => rfl),
          migrateLive_some v.fields x.fields hvf.length_eq]
        rfl
      rw [e1, Option.bind_some]
      unfold migrateEnum
      rw [hfind]
      simp only [migrateVariant, migrate_same _ _ hvf, Res.ok_bind, hm'.2.1, if_true, hi]
      rfl
  · intro s hs f hf
    obtain ⟨v, _, rfl⟩ := List.mem_map.1 hs
    obtain ⟨f, _, rfl⟩ := List.mem_map.1 hf
    exact ⟨rfl, rfl⟩
  · rw [hm1, List.take_length]; exact hA
  · rw [List.take_length]
    intro ho s hs f hf
    obtain ⟨v, hv, rfl⟩ := List.mem_map.1 hs
    obtain ⟨f, hf', rfl⟩ := List.mem_map.1 hf
    exact (hleg ho v hv f hf').step
  · rw [List.take_length]
    intro ho s hs f hf
    obtain ⟨v, hv, rfl⟩ := List.mem_map.1 hs
    obtain ⟨f, hf', rfl⟩ := List.mem_map.1 hf
    exact (hopt ho v hv f hf').reads
  · rw [List.take_length]
    intro ho s hs hex
    obtain ⟨v, hv, rfl⟩ := List.mem_map.1 hs
    rw [hnew] at hex ⊢
    exact hn ho v hv hex
  · intro _ s _ _ f _
    rfl

/-! ### Programs -/

section
variable {ι : Type} {K : ι → Kind} [DecidableEq ι] {cfg : Cfg} {I : Impls K} {n : Nat}
  {c : (i : ι) → Codec (Values K n i)}

theorem Field.plain_faithful (hc : ∀ i, (c i).Faithful) (f : Field K) : (f.decl cfg I n c).plain.Faithful :=
  dynC_faithful f.ty (Ty.codec_faithful_of cfg (E := I.env n c) hc f.ty)

theorem Field.legacy_faithful (hc : ∀ i, (c i).Faithful) (f : Field K) (hs : f.Skippable cfg) :
    (f.decl cfg I n c).LegacyFaithful := by
  have hp := Field.plain_faithful (cfg := cfg) (I := I) hc f
  have hf : (f.decl cfg I n c).fixedLe.Faithful :=
    dynC_faithful f.ty (fixedOf_faithful_of cfg (E := I.env n c) hc f.ty)
  have hb : (f.decl cfg I n c).bulk.Faithful := dynC_faithful f.ty (bulkOf_faithful_of cfg (E := I.env n c) hc f.ty)
  have hbp : f.opts.specialised = true → (f.decl cfg I n c).bulk = (f.decl cfg I n c).plain := by
    intro hsp
    rcases hs with hs | hs
    · show dynC f.ty (bulkOf cfg _ f.ty) = dynC f.ty (f.ty.codec cfg _)
      congr 1
      cases cfg with
      | mk fw sp =>
        simp only at hs
        subst hs
        cases f.ty <;> rfl
    · rw [hs] at hsp; cases hsp
  have e1 : (f.decl cfg I n c).opts = f.opts := rfl
  by_cases hfx : f.opts.fixed
  · refine ⟨?_, ?_, ?_⟩ <;>
      simp only [FieldDecl.legacyC, FieldDecl.legacySkip, FieldDecl.legacySkipS, e1, if_pos hfx]
    · exact hf.round_trip
    · exact hf.skip_after
    · exact hf.skip_after
  · by_cases hsp : f.opts.specialised
    · refine ⟨?_, ?_, ?_⟩ <;>
        simp only [FieldDecl.legacyC, FieldDecl.legacySkip, FieldDecl.legacySkipS, e1, if_neg hfx, if_pos hsp]
      · exact hb.round_trip
      · rw [hbp hsp]; exact hp.skip_after
      · rw [hbp hsp]; exact hp.skipS_after
    · refine ⟨?_, ?_, ?_⟩ <;>
        simp only [FieldDecl.legacyC, FieldDecl.legacySkip, FieldDecl.legacySkipS, e1, if_neg hfx, if_neg hsp]
      · exact hp.round_trip
      · exact hp.skip_after
      · exact hp.skipS_after

theorem Field.optimised_faithful (htrans : ∀ t, Std.TransCmp (I.cmp n t)) (hc : ∀ i, (c i).Faithful) (f : Field K) :
    (f.decl cfg I n c).optimisedC.Faithful := by
  unfold FieldDecl.optimisedC
  split
  · exact dynC_faithful f.ty (indexedOf_faithful_of cfg (E := I.env n c) htrans hc f.ty)
  · exact f.plain_faithful hc

theorem Body.faithful (htrans : ∀ t, Std.TransCmp (I.cmp n t)) (hc : ∀ i, (c i).Faithful) (hist : List Entry)
    (hh : ValidHistory hist) : {kind : Kind} → (body : Body K kind) →
    body.Readable cfg (lastEntry hist) hist.length → (body.codec cfg I n c hist).Faithful
  | _, .struct fs, hR => by
    obtain ⟨hn, _, hsk⟩ := hR
    rw [hh.lastEntry_revision] at hn
    refine structC_faithful cfg hist hh _ ?_ ?_ ?_
    · intro ho f hf
      obtain ⟨f, hf', rfl⟩ := List.mem_map.1 hf
      exact f.legacy_faithful hc (hsk ho f hf')
    · intro ho f hf
      obtain ⟨f, hf', rfl⟩ := List.mem_map.1 hf
      exact f.optimised_faithful htrans hc
    · unfold DistinctFieldNames at hn
      unfold DistinctNames
      rw [List.filter_map, List.map_map]
      exact hn
  | _, .enum vs, hR => by
    obtain ⟨hA, hx, hn, hsk⟩ := hR
    rw [hh.lastEntry_revision] at hn
    have es : (vs.map (·.decl cfg I n c)).map VariantDecl.sig = vs.map Variant.sig := by
      rw [List.map_map]
      refine List.map_congr_left fun v _ => ?_
      simp only [Function.comp, Variant.decl, VariantDecl.sig, Variant.sig, List.map_map]
      rfl
    refine enumC_faithful cfg hist hh _ ⟨es ▸ hA.distinct, es ▸ hA.discs, es ▸ hA.optimised⟩ ?_ ?_ ?_
    · intro ho v hv f hf
      obtain ⟨v, hv', rfl⟩ := List.mem_map.1 hv
      obtain ⟨f, hf', rfl⟩ := List.mem_map.1 hf
      exact f.legacy_faithful hc (hsk ho v hv' f hf')
    · intro ho v hv f hf
      obtain ⟨v, hv', rfl⟩ := List.mem_map.1 hv
      obtain ⟨f, hf', rfl⟩ := List.mem_map.1 hf
      exact f.plain_faithful hc
    · intro ho v hv hex
      obtain ⟨v, hv', rfl⟩ := List.mem_map.1 hv
      have := hn ho v hv' hex
      unfold DistinctFieldNames at this
      unfold DistinctNames
      simp only [Variant.decl]
      rw [List.filter_map, List.map_map]
      exact this
  | _, .foreign x, _ => x.faithful

end

theorem Program.faithful {ι : Type} [DecidableEq ι] (cfg : Cfg) (P : Program ι) (I : Impls P.kind)
    (htrans : ∀ n t, Std.TransCmp (I.cmp n t)) (hP : P.Readable cfg P.current) : ∀ (n : Nat) (i : ι),
    (P.codec cfg I n i).Faithful
  | 0, _ => ⟨fun v => Empty.elim v, fun v => Empty.elim v, fun v => Empty.elim v, fun v => Empty.elim v⟩
  | n + 1, i => by
    have hb := hP.body i
    unfold Program.entryAt Program.current at hb
    rw [List.take_length] at hb
    exact Body.faithful (htrans n) (Program.faithful cfg P I htrans hP n) (P.history i) (hP.history i) (P.body i) hb

end Revision
