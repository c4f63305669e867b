import Verif.Proofs.ReadsIndexed
import Verif.Proofs.Derive
import Verif.Proofs.DeriveEnum

/-! Helper lemmas: derived types written by one program and read by another whose field codecs
differ. -/

namespace Revision

variable {V W : Type}

/-- A field of the writer, the same field of the reader, and what the reader gets for a value. -/
structure FieldStep (V W : Type) where
  old : FieldDecl V
  new : FieldDecl W
  mig : V → Option W

def FieldStep.SameDecl (s : FieldStep V W) : Prop := s.old.opts = s.new.opts ∧ s.old.name = s.new.name

theorem FieldStep.SameDecl.exists {s : FieldStep V W} (h : s.SameDecl) (r : Nat) :
    s.old.existsAt r = s.new.existsAt r := by
  unfold FieldDecl.existsAt; rw [h.1]

/-- The readers of the fields deliver `ws` from the bytes `bs`. -/
inductive Delivers (rd : FieldDecl V → Rd V) : List (FieldDecl V) → List Bytes → List (Option V) → Prop
  | nil : Delivers rd [] [] []
  | cons {f fs b bs w ws} : (∀ t, (rd f (b ++ t)).ok? = w.map (·, t)) → Delivers rd fs bs ws →
      Delivers rd (f :: fs) (b :: bs) (w :: ws)

theorem decodeFields_out {live removed : FieldDecl V → Rd V} {cur tgt : Nat} :
    ∀ (fs : List (FieldDecl V)) (bs : List Bytes) (ws : List (Option V)) (env : Binds V) (t : Bytes),
    Delivers (fun f => if f.existsAt tgt then live f else removed f) (aliveFields fs cur) bs ws →
    (decodeFields live removed cur tgt fs env (bs.flatten ++ t)).ok? =
      ((migrateAll id ws).bind fun ws =>
        ((fun ps => (bindsOf ps).reverse ++ env) <$> migratedFields cur tgt fs ws).ok?).map (·, t)
  | [], bs, ws, env, t, h => by
    cases h; rfl
  | f :: fs, bs, ws, env, t, h => by
    have ih := decodeFields_out (live := live) (removed := removed) (cur := cur) (tgt := tgt) fs
    unfold aliveFields at h
    unfold decodeFields
    by_cases ha : f.existsAt cur
    · rw [List.filter_cons_of_pos (by simpa using ha)] at h
      cases h with
      | cons h1 h2 =>
      rename_i b bs w ws
      rw [List.flatten_cons, List.append_assoc]
      by_cases hb : f.existsAt tgt
      · simp only [ha, hb, Bool.and_self, if_true] at h1 ⊢
        rw [Rd.bind_ok? (h1 _)]
        cases w with
        | none => rfl
        | some v =>
          simp only [Option.bind_some, ih bs ws _ t h2, migrateAll, id]
          cases migrateAll id ws with
          | none => rfl
          | some ws =>
            simp only [Option.bind_some, Option.bind_eq_bind, pure]
            rw [migratedFields]
            simp only [ha, if_true]
            cases hm : migratedFields cur tgt fs ws <;> simp [Res.ok?, bindsOf, Functor.map, Res.bind]
      · simp only [Bool.not_eq_true] at hb
        simp only [ha, hb, Bool.and_self, Bool.false_and, Bool.not_true, Bool.not_false, if_true,
          Bool.false_eq_true, if_false] at h1 ⊢
        rw [Rd.bind_ok? (h1 _)]
        cases w with
        | none => rfl
        | some v =>
          simp only [Option.bind_some, ih bs ws _ t h2, migrateAll, id]
          cases migrateAll id ws with
          | none => rfl
          | some ws =>
            simp only [Option.bind_some, Option.bind_eq_bind, pure]
            rw [migratedFields]
            simp only [ha, if_true]
            cases hm : migratedFields cur tgt fs ws <;> simp [Res.ok?, bindsOf, Functor.map, Res.bind]
    · rw [List.filter_cons_of_neg (by simpa using ha)] at h
      simp only [Bool.not_eq_true] at ha
      have hmf : ∀ ws, migratedFields cur tgt (f :: fs) ws = if f.existsAt tgt then (do
          let v ← f.dflt cur
          let rest ← migratedFields cur tgt fs ws
          pure ((f, v) :: rest)) else migratedFields cur tgt fs ws := by
        intro ws
        rw [migratedFields.eq_def cur tgt (f :: fs)]
        simp only [ha, Bool.false_eq_true, if_false]
      simp only [hmf]
      by_cases hb : f.existsAt tgt
      · simp only [ha, hb, Bool.and_false, Bool.not_false, Bool.and_self, if_true, Bool.false_eq_true, if_false]
        cases hd : f.dflt cur with
        | ok v =>
          rw [Rd.bind_of_ok (a := v) (r := bs.flatten ++ t) rfl, ih bs ws _ t h]
          cases migrateAll id ws with
          | none => rfl
          | some ws =>
            simp only [Option.bind_some]
            cases hm : migratedFields cur tgt fs ws <;> simp [Res.ok?, bindsOf, Functor.map, Res.bind]
        | err x => rw [Rd.bind_of_err (e := x) rfl]; cases migrateAll id ws <;> rfl
        | panic => rw [Rd.bind_of_panic rfl]; cases migrateAll id ws <;> rfl
      · simp only [Bool.not_eq_true] at hb
        simp only [ha, hb, Bool.and_false, Bool.not_false, Bool.and_self, Bool.false_eq_true,
          if_false, Bool.false_and]
        exact ih bs ws env t h

theorem decodeStructBody_out {live removed : FieldDecl V → Rd V} {cur tgt : Nat}
    (fs : List (FieldDecl V)) (bs : List Bytes) (ws : List (Option V)) (t : Bytes)
    (hn : DistinctNames fs cur tgt)
    (h : Delivers (fun f => if f.existsAt tgt then live f else removed f) (aliveFields fs cur) bs ws) :
    (decodeStructBody live removed cur tgt fs (bs.flatten ++ t)).ok? =
      ((migrateAll id ws).bind fun ws => (migrate cur tgt fs ws).ok?).map (·, t) := by
  unfold decodeStructBody
  rw [Rd.bind_ok? (decodeFields_out fs bs ws [] t h)]
  cases migrateAll id ws with
  | none => rfl
  | some ws =>
    simp only [Option.bind_some]
    unfold migrate
    cases hm : migratedFields cur tgt fs ws with
    | err e => rfl
    | panic => rfl
    | ok all =>
      simp only [Res.ok_bind]
      have e0 : ((fun ps => (bindsOf ps).reverse ++ []) <$> Res.ok all).ok? = some (bindsOf all).reverse := by
        simp [Functor.map, Res.bind, Res.ok?]
      rw [e0, Option.bind_some]
      have hf := migratedFields_fields fs ws all hm
      have hk : (((bindsOf all).reverse).map (·.1)).Nodup := by
        rw [List.map_reverse, nodup_reverse_iff]
        unfold DistinctNames at hn
        rw [← hf, List.map_map] at hn
        unfold bindsOf
        rw [List.map_map]
        exact hn
      have hlook : ∀ q ∈ all, (bindsOf all).reverse.lookup q.1.name = some q.2 := by
        intro q hq
        refine lookup_eq_some_of_mem _ hk _ _ ?_
        exact List.mem_reverse.2 (List.mem_map.2 ⟨q, hq, rfl⟩)
      rw [construct_eq tgt _ _ fs all (fun f hf => by simp [hf]) hf hlook,
        Rd.bind_of_ok (a := (all.filter fun q => q.1.existsAt tgt).map (·.2)) (r := t) rfl,
        runConverts_eq cur tgt _ fs all _ hf hlook, lift_andRest, Res.ok?_andRest]

theorem Rd.within_ok? {m : Rd α} {s r : Bytes} {x : Option α} (h : (m s).ok? = x.map (·, r)) :
    (m.within s).ok? = x := by
  cases x with
  | some a => rw [Rd.within_of_ok (Res.ok?_eq_some.1 h)]; rfl
  | none =>
    unfold Rd.within
    cases hm : m s with
    | ok p => rw [hm] at h; cases h
    | err e => rfl
    | panic => rfl

theorem Rd.lift_ok? (x : Res α) (t : Bytes) : (Rd.lift x t).ok? = x.ok?.map (·, t) := by
  rw [lift_andRest, Res.ok?_andRest]

theorem Delivers.length {rd : FieldDecl V → Rd V} {fs bs ws} (h : Delivers rd fs bs ws) :
    bs.length = fs.length ∧ ws.length = fs.length := by
  induction h with
  | nil => exact ⟨rfl, rfl⟩
  | cons _ _ ih => simp [ih.1, ih.2]

/-- Reading the body of a struct. -/
theorem deserializeStructBody_out (e : Entry) (tgt : Nat) (fs : List (FieldDecl V)) (bs : List Bytes)
    (ws : List (Option V)) (t : Bytes) (hn : DistinctNames fs e.revision tgt)
    (hsz : e.optimised = true → (structPayload e bs).length < 2 ^ 32)
    (h : Delivers (fun f => if f.existsAt tgt then (f.wire e).dec else f.removedDec e)
      (aliveFields fs e.revision) bs ws) :
    (deserializeStructBody e tgt fs (structLayout e bs ++ t)).ok? =
      ((migrateAll id ws).bind fun ws => (migrate e.revision tgt fs ws).ok?).map (·, t) := by
  have hrun := fun t => decodeStructBody_out (live := fun f => (f.wire e).dec) (removed := fun f => f.removedDec e)
    fs bs ws t hn h
  unfold deserializeStructBody
  by_cases ho : e.optimised
  · simp only [if_pos ho]
    unfold structLayout
    rw [if_pos ho, Rd.bind_of_ok (readLengthPrefixed_append _ (hsz ho) t)]
    have := hrun []
    rw [List.append_nil] at this
    by_cases hi : e.indexedStruct
    · simp only [if_pos hi]
      have htl : (offsetTable bs).length = 4 * aliveCount fs e.revision := by
        rw [offsetTable_eq, offsetsFrom_length, h.length.1]; rfl
      unfold structPayload
      rw [if_pos hi, if_neg (by rw [List.length_append, htl]; omega), ← htl, List.drop_left]
      rw [Rd.lift_ok?, Rd.within_ok? this]
    · simp only [if_neg hi]
      unfold structPayload
      rw [if_neg hi]
      rw [Rd.lift_ok?, Rd.within_ok? this]
  · simp only [if_neg ho]
    unfold structLayout
    rw [if_neg ho]
    exact hrun t

/-! ### The writer's fields -/

theorem migrateAll_map_id (g : α → Option β) : ∀ l : List α, migrateAll id (l.map g) = migrateAll g l
  | [] => rfl
  | a :: l => by simp only [List.map_cons, migrateAll, id, migrateAll_map_id g l]

/-- What the writer wrote for its live fields is delivered to the reader. -/
theorem delivers_of_encodes {c : FieldDecl V → Codec V} {rd : FieldDecl W → Rd W} {r : Nat} :
    ∀ (ss : List (FieldStep V W)) (vs : List V) (bs : List Bytes), (∀ s ∈ ss, s.SameDecl) →
    (∀ s ∈ ss, s.new.existsAt r = true → ∀ v b, (c s.old).valid v → (c s.old).enc v = .ok b → ∀ t,
      (rd s.new (b ++ t)).ok? = (s.mig v).map (·, t)) →
    AllValid c (aliveFields (ss.map (·.old)) r) vs → Encodes c (aliveFields (ss.map (·.old)) r) vs bs →
    ∃ ws, Delivers rd (aliveFields (ss.map (·.new)) r) bs ws ∧
      migrateAll id ws = migrateLive (fun s => s.new.existsAt r) FieldStep.mig ss vs
  | [], vs, bs, _, _, hv, he => by
    cases he
    exact ⟨[], .nil, rfl⟩
  | s :: ss, vs, bs, hs, h, hv, he => by
    have ih := delivers_of_encodes (c := c) (rd := rd) (r := r) ss
    have hs' := fun x hx => hs x (List.mem_cons_of_mem _ hx)
    have h' := fun x hx => h x (List.mem_cons_of_mem _ hx)
    have hex := (hs s List.mem_cons_self).exists r
    unfold aliveFields at hv he ih ⊢
    rw [List.map_cons] at hv he
    rw [List.map_cons]
    by_cases ha : s.new.existsAt r
    · rw [List.filter_cons_of_pos (by rw [hex]; exact ha)] at hv he
      rw [List.filter_cons_of_pos (by exact ha)]
      cases hv with
      | cons hv1 hv2 =>
      cases he with
      | cons he1 he2 =>
      rename_i v vs b bs
      obtain ⟨ws, h1, h2⟩ := ih vs bs hs' h' hv2 he2
      refine ⟨s.mig v :: ws, .cons (fun t => h s List.mem_cons_self ha v b hv1 he1 t) h1, ?_⟩
      rw [migrateAll, migrateLive, if_pos ha, h2]
      rfl
    · rw [List.filter_cons_of_neg (by rw [hex]; exact ha)] at hv he
      rw [List.filter_cons_of_neg (by exact ha)]
      obtain ⟨ws, h1, h2⟩ := ih vs bs hs' h' hv he
      exact ⟨ws, h1, by rw [h2, migrateLive.eq_def _ _ (s :: ss)]; simp only [ha, if_false, Bool.false_eq_true]⟩

/-- Skipping what the writer wrote for its live fields. -/
theorem skipFields_out {c : FieldDecl V → Codec V} {skip : FieldDecl W → Rd Unit} {r tgt : Nat} :
    ∀ (ss : List (FieldStep V W)) (vs : List V) (bs : List Bytes) (t : Bytes), (∀ s ∈ ss, s.SameDecl) →
    (∀ s ∈ ss, s.new.existsAt r = true → ∀ v b, (c s.old).valid v → (c s.old).enc v = .ok b → ∀ t,
      Lands w (skip s.new (b ++ t)) t) →
    AllValid c (aliveFields (ss.map (·.old)) r) vs → Encodes c (aliveFields (ss.map (·.old)) r) vs bs →
    Lands w (skipFields skip r tgt (ss.map (·.new)) (bs.flatten ++ t)) t
  | [], vs, bs, t, _, _, hv, he => by
    cases he
    exact .ok rfl
  | s :: ss, vs, bs, t, hs, h, hv, he => by
    have ih := skipFields_out (w := w) (c := c) (skip := skip) (r := r) (tgt := tgt) ss
    have hs' := fun x hx => hs x (List.mem_cons_of_mem _ hx)
    have h' := fun x hx => h x (List.mem_cons_of_mem _ hx)
    have hex := (hs s List.mem_cons_self).exists r
    unfold aliveFields at hv he ih
    rw [List.map_cons] at hv he
    rw [List.map_cons]
    unfold skipFields
    by_cases ha : s.new.existsAt r
    · rw [List.filter_cons_of_pos (by rw [hex]; exact ha)] at hv he
      cases hv with
      | cons hv1 hv2 =>
      cases he with
      | cons he1 he2 =>
      rename_i v vs b bs
      have hh := h s List.mem_cons_self ha v b hv1 he1
      rw [List.flatten_cons, List.append_assoc]
      by_cases hb : s.new.existsAt tgt
      · simp only [ha, hb, Bool.and_self, if_true]
        exact (hh _).bind (ih vs bs t hs' h' hv2 he2)
      · simp only [Bool.not_eq_true] at hb
        simp only [ha, hb, Bool.and_self, Bool.false_and, Bool.not_true, Bool.not_false, if_true,
          Bool.false_eq_true, if_false]
        exact (hh _).bind (ih vs bs t hs' h' hv2 he2)
    · rw [List.filter_cons_of_neg (by rw [hex]; exact ha)] at hv he
      simp only [Bool.not_eq_true] at ha
      have := ih vs bs t hs' h' hv he
      by_cases hb : s.new.existsAt tgt
      · simp only [ha, hb, Bool.and_false, Bool.not_false, Bool.and_self, if_true, Bool.false_eq_true, if_false]
        exact this
      · simp only [Bool.not_eq_true] at hb
        simp only [ha, hb, Bool.and_false, Bool.not_false, Bool.and_self, Bool.false_eq_true,
          if_false, Bool.false_and]
        exact this

/-- What the reader of a legacy-encoded field needs of the codecs. -/
structure FieldStep.LegacyReads (s : FieldStep V W) (w : Bool) : Prop where
  dec : ∀ v b, s.old.legacyC.valid v → s.old.legacyC.enc v = .ok b → ∀ t,
    (s.new.legacyC.dec (b ++ t)).ok? = (s.mig v).map (·, t)
  skip : ∀ v b, s.old.legacyC.valid v → s.old.legacyC.enc v = .ok b → ∀ t,
    Lands w (s.new.legacySkip (b ++ t)) t
  skipS : ∀ v b, s.old.legacyC.valid v → s.old.legacyC.enc v = .ok b → ∀ t,
    Lands w (s.new.legacySkipS (b ++ t)) t

/-- What the program wrote for a struct as it stood at revision `k`. -/
theorem structC_wrote (cfg : Cfg) {h : List Entry} (hh : ValidHistory h) (fs : List (FieldDecl V))
    {k : Nat} (h1 : 1 ≤ k) (h2 : k ≤ h.length) (vs : List V) (b : Bytes)
    (hv : (structC cfg (h.take k) (fieldsAsOf k fs)).valid vs)
    (hb : (structC cfg (h.take k) (fieldsAsOf k fs)).enc vs = .ok b) : ∃ bs,
      AllValid (fun f => f.wire (lastEntry (h.take k))) (aliveFields fs k) vs ∧
      Encodes (fun f => f.wire (lastEntry (h.take k))) (aliveFields fs k) vs bs ∧
      ((lastEntry (h.take k)).optimised = true → (structPayload (lastEntry (h.take k)) bs).length < 2 ^ 32) ∧
      b = encU16 cfg k ++ structLayout (lastEntry (h.take k)) bs := by
  have hrev : (lastEntry (h.take k)).revision = k := by
    have := hh.revision_get (hh.lastEntry_take h1 h2)
    omega
  have hkt := (hh.take h1 h2).latest_eq
  rw [List.length_take, Nat.min_eq_left h2] at hkt
  have hk64 : k < 2 ^ 64 - 1 := by have := hh.fits; omega
  unfold structC at hv hb
  simp only [hkt] at hv hb
  generalize lastEntry (h.take k) = e at *
  subst hrev
  obtain ⟨body, hbody, hb'⟩ := Res.bind_eq_ok.1 hb
  cases hb'
  rw [serializeStructBody_asOf e hk64] at hbody
  rw [validFields_asOf hk64, validFields_iff] at hv
  obtain ⟨bs, hbs⟩ := serializeStructBody_ok e _ vs body hv.length_eq hbody
  rw [serializeStructBody_encodes e _ vs bs hbs] at hbody
  split at hbody
  · cases hbody
  · rename_i hc
    cases hbody
    exact ⟨bs, hv, hbs, fun ho => by simp [ho] at hc; omega, rfl⟩

/-- A struct written by the program as it stood at revision `k`, its fields by other codecs. -/
theorem structC_reads (cfg : Cfg) (h : List Entry) (hh : ValidHistory h) (ss : List (FieldStep V W))
    (k : Nat) (h1 : 1 ≤ k) (h2 : k ≤ h.length) (hs : ∀ s ∈ ss, s.SameDecl)
    (hleg : (lastEntry (h.take k)).optimised = false → ∀ s ∈ ss, s.LegacyReads w)
    (hopt : (lastEntry (h.take k)).optimised = true → ∀ s ∈ ss, s.new.existsAt k = true →
      ∀ v b, s.old.optimisedC.valid v → s.old.optimisedC.enc v = .ok b → ∀ t,
      ((if s.new.existsAt h.length then s.new.optimisedC.dec else s.new.plain.dec) (b ++ t)).ok? =
        (s.mig v).map (·, t))
    (hn : DistinctNames (ss.map (·.new)) k h.length) :
    (structC cfg (h.take k) (fieldsAsOf k (ss.map (·.old)))).Reads w (structC cfg h (ss.map (·.new)))
      (fun vs => (migrateLive (fun s => s.new.existsAt k) FieldStep.mig ss vs).bind fun ws =>
        (migrate k h.length (ss.map (·.new)) ws).ok?) := by
  have hmem : lastEntry (h.take k) ∈ h := List.mem_of_getElem? (hh.lastEntry_take h1 h2)
  have hrev : (lastEntry (h.take k)).revision = k := by
    have := hh.revision_get (hh.lastEntry_take h1 h2)
    omega
  have hkt := (hh.take h1 h2).latest_eq
  rw [List.length_take, Nat.min_eq_left h2] at hkt
  have hk64 : k < 2 ^ 64 - 1 := by have := hh.fits; omega
  have key := structC_wrote cfg hh (ss.map (·.old)) h1 h2
  have dec : ∀ vs b, (structC cfg (h.take k) (fieldsAsOf k (ss.map (·.old)))).valid vs →
      (structC cfg (h.take k) (fieldsAsOf k (ss.map (·.old)))).enc vs = .ok b → ∀ t,
      ((structC cfg h (ss.map (·.new))).dec (b ++ t)).ok? =
        ((migrateLive (fun s => s.new.existsAt k) FieldStep.mig ss vs).bind fun ws =>
          (migrate k h.length (ss.map (·.new)) ws).ok?).map (·, t) := by
    intro vs b hv hb t
    obtain ⟨bs, hv, hbs, hsz, rfl⟩ := key vs b hv hb
    unfold structC
    simp only [hh.latest_eq]
    generalize lastEntry (h.take k) = e at *
    subst hrev
    rw [List.append_assoc, dispatch_hit cfg hh hmem]
    obtain ⟨ws, hd, hm⟩ := delivers_of_encodes (c := fun f => f.wire e)
      (rd := fun f => if f.existsAt h.length then (f.wire e).dec else f.removedDec e) (r := e.revision)
      ss vs bs hs (fun s hsm hex v b hv hb t => by
        by_cases ho : e.optimised
        · have := hopt ho s hsm hex v b
          simp only [FieldDecl.wire, FieldDecl.removedDec, if_pos ho] at hv hb ⊢
          exact this hv hb t
        · have := (hleg (by simpa using ho) s hsm).dec v b
          simp only [FieldDecl.wire, FieldDecl.removedDec, if_neg ho, ite_self] at hv hb ⊢
          exact this hv hb t) hv hbs
    rw [deserializeStructBody_out e h.length _ bs ws t hn hsz hd, hm]
  have skip : ∀ vs b, (structC cfg (h.take k) (fieldsAsOf k (ss.map (·.old)))).valid vs →
      (structC cfg (h.take k) (fieldsAsOf k (ss.map (·.old)))).enc vs = .ok b → ∀ t,
      Lands w ((structC cfg h (ss.map (·.new))).skip (b ++ t)) t ∧
      Lands w ((structC cfg h (ss.map (·.new))).skipS (b ++ t)) t := by
    intro vs b hv hb t
    obtain ⟨bs, hv, hbs, hsz, rfl⟩ := key vs b hv hb
    unfold structC
    simp only [hh.latest_eq]
    generalize lastEntry (h.take k) = e at *
    subst hrev
    rw [List.append_assoc, dispatch_hit cfg hh hmem, dispatch_hit cfg hh hmem]
    unfold skipStructBody skipSStructBody structLayout
    by_cases ho : e.optimised
    · simp only [if_pos ho, List.append_assoc]
      have hp := readLengthPrefixed_append _ (hsz ho) t
      rw [List.append_assoc] at hp
      constructor
      · obtain ⟨x, hx⟩ := readLengthPrefixed_agree (adv := Rd.advance) (fun n => Rd.Agree.readExact_advance n) _ _ _ hp
        exact .ok hx
      · obtain ⟨x, hx⟩ := readLengthPrefixed_agree (adv := Rd.consume) (fun n => Rd.Agree.readExact_consume n) _ _ _ hp
        exact .ok hx
    · have hw : (fun f : FieldDecl V => f.wire e) = fun f => f.legacyC := by
        funext f; unfold FieldDecl.wire; rw [if_neg ho]
      rw [hw] at hv hbs
      have hl := hleg (by simpa using ho)
      simp only [if_neg ho]
      exact ⟨skipFields_out ss vs bs t hs (fun s hsm _ => (hl s hsm).skip) hv hbs,
        skipFields_out ss vs bs t hs (fun s hsm _ => (hl s hsm).skipS) hv hbs⟩
  exact ⟨dec, fun vs b hv hb t => (skip vs b hv hb t).1, fun vs b hv hb t => (skip vs b hv hb t).2,
    fun vs b hv hb t => Rd.ok?_discard (dec vs b hv hb t)⟩


/-! ### Enums -/

/-- A variant of the writer and of the reader: the same declaration, other codecs. -/
structure VariantStep (V W : Type) where
  ident : String
  opts : VariantOptions
  fields : List (FieldStep V W)
  oldConvert : List V → Nat → Res (EnumVal V)
  newConvert : List W → Nat → Res (EnumVal W)

def VariantStep.old (s : VariantStep V W) : VariantDecl V :=
  ⟨s.ident, s.opts, s.fields.map (·.old), s.oldConvert⟩

def VariantStep.new (s : VariantStep V W) : VariantDecl W :=
  ⟨s.ident, s.opts, s.fields.map (·.new), s.newConvert⟩

theorem VariantStep.sig_eq {ss : List (VariantStep V W)} (hs : ∀ s ∈ ss, ∀ f ∈ s.fields, f.SameDecl) :
    (ss.map VariantStep.old).map VariantDecl.sig = (ss.map VariantStep.new).map VariantDecl.sig := by
  rw [List.map_map, List.map_map]
  refine List.map_congr_left fun s hsm => ?_
  simp only [Function.comp, VariantDecl.sig, VariantStep.old, VariantStep.new, List.map_map]
  congr 1
  exact List.map_congr_left fun f hf => (hs s hsm f hf).1

theorem discsAt_step {ss : List (VariantStep V W)} (hs : ∀ s ∈ ss, ∀ f ∈ s.fields, f.SameDecl) (r : Nat) :
    discsAt (ss.map VariantStep.old) r = discsAt (ss.map VariantStep.new) r := by
  unfold discsAt
  rw [VariantStep.sig_eq hs]

theorem AcceptedEnum.step {e : Entry} {ss : List (VariantStep V W)} (hs : ∀ s ∈ ss, ∀ f ∈ s.fields, f.SameDecl)
    (h : AcceptedEnum e (ss.map VariantStep.new)) : AcceptedEnum e (ss.map VariantStep.old) := by
  have := VariantStep.sig_eq hs
  exact ⟨this ▸ h.distinct, this ▸ h.discs, this ▸ h.optimised⟩

/-- The nested values of a variant's fields, migrated. -/
def migrateVariantLive (r : Nat) (ss : List (VariantStep V W)) (x : EnumVal V) : Option (EnumVal W) :=
  match (ss.filter fun s => s.new.existsAt r).find? (fun s => s.ident == x.variant) with
  | some s => (migrateLive (fun s => s.new.existsAt r) FieldStep.mig s.fields x.fields).map (⟨x.variant, ·⟩)
  | none => none

theorem decodeAlive_out {r : Nat} : ∀ (fs : List (FieldDecl V)) (bs : List Bytes) (ws : List (Option V)) (t : Bytes),
    Delivers (fun f => f.plain.dec) (aliveFields fs r) bs ws →
    (decodeAlive r fs (bs.flatten ++ t)).ok? = (migrateAll id ws).map (·, t)
  | [], bs, ws, t, h => by cases h; rfl
  | f :: fs, bs, ws, t, h => by
    have ih := decodeAlive_out (r := r) fs
    unfold aliveFields at h
    unfold decodeAlive
    by_cases ha : f.existsAt r
    · rw [List.filter_cons_of_pos (by simpa using ha)] at h
      cases h with
      | cons h1 h2 =>
      rename_i b bs w ws
      rw [if_pos ha, List.flatten_cons, List.append_assoc, Rd.bind_ok? (h1 _)]
      cases w with
      | none => rfl
      | some v =>
        simp only [Option.bind_some, migrateAll, id]
        rw [Rd.bind_map_ok? (ih bs ws t h2)]
        cases migrateAll id ws <;> rfl
    · rw [List.filter_cons_of_neg (by simpa using ha)] at h
      rw [if_neg ha]
      exact ih bs ws t h

theorem migrateLive_length {alive : F → Bool} {mig : F → V → Option W} : ∀ {fs : List F} {vs ws},
    migrateLive alive mig fs vs = some ws → ws.length = (fs.filter alive).length
  | [], vs, ws, h => by
    unfold migrateLive at h
    split at h <;> cases h
    rfl
  | f :: fs, vs, ws, h => by
    unfold migrateLive at h
    by_cases ha : alive f
    · rw [if_pos ha] at h
      rw [List.filter_cons_of_pos ha]
      cases vs with
      | nil => cases h
      | cons v vs =>
        simp only [Option.bind_eq_bind, Option.bind_eq_some_iff] at h
        obtain ⟨w, _, ws', h2, h3⟩ := h
        cases h3
        rw [List.length_cons, List.length_cons, migrateLive_length h2]
    · rw [if_neg ha] at h
      rw [List.filter_cons_of_neg ha]
      exact migrateLive_length h

/-- Migration does nothing to a variant whose fields are the same. -/
theorem migrate_of_same_length {cur tgt : Nat} (fs : List (FieldDecl V)) (ws : List V)
    (hs : ∀ f ∈ fs, f.existsAt tgt = f.existsAt cur) (h : ws.length = (aliveFields fs cur).length) :
    migrate cur tgt fs ws = .ok ws := by
  let c : FieldDecl V → Codec V := fun _ =>
    { valid := fun _ => True, enc := fun _ => .panic, dec := Rd.fail .io, skip := Rd.fail .io,
      skipS := Rd.fail .io, check := Rd.fail .io }
  have hv : ∀ (l : List (FieldDecl V)) (ws : List V), ws.length = l.length → AllValid c l ws := by
    intro l
    induction l with
    | nil =>
      intro ws h
      cases ws with
      | nil => exact .nil
      | cons => cases h
    | cons f l ih =>
      intro ws h
      cases ws with
      | nil => cases h
      | cons w ws => exact .cons trivial (ih ws (by simpa using h))
  exact migrate_of_same fs ws hs (hv _ _ h)

/-- What the program wrote for an enum as it stood at revision `k`. -/
theorem enumC_wrote (cfg : Cfg) {h : List Entry} (hh : ValidHistory h) {ss : List (VariantStep V W)}
    {k : Nat} (h1 : 1 ≤ k) (h2 : k ≤ h.length) (hs : ∀ s ∈ ss, ∀ f ∈ s.fields, f.SameDecl)
    (hA : AcceptedEnum (lastEntry (h.take k)) (ss.map VariantStep.new)) (x : EnumVal V) (b : Bytes)
    (hv : (enumC cfg (h.take k) (variantsAsOf k (ss.map VariantStep.old))).valid x)
    (hb : (enumC cfg (h.take k) (variantsAsOf k (ss.map VariantStep.old))).enc x = .ok b) :
      ∃ s ∈ ss, ∃ d bs, (d, s.new) ∈ variantArms (ss.map VariantStep.new) k ∧ s.ident = x.variant ∧
      s.new.existsAt k = true ∧
      AllValid (fun f => f.variantWire (lastEntry (h.take k))) (aliveFields (s.fields.map (·.old)) k) x.fields ∧
      Encodes (fun f => f.variantWire (lastEntry (h.take k))) (aliveFields (s.fields.map (·.old)) k) x.fields bs ∧
      ((lastEntry (h.take k)).optimised = true → match s.opts.size.getD .inline with
        | .inline => bs.flatten = []
        | .fixed n => bs.flatten.length = n
        | .varlen => bs.flatten.length < 2 ^ 32) ∧
      b = encU16 cfg k ++ enumLayout cfg (lastEntry (h.take k)) d (s.opts.size.getD .inline) bs := by
  have hrev : (lastEntry (h.take k)).revision = k := by
    have := hh.revision_get (hh.lastEntry_take h1 h2)
    omega
  have hkt := (hh.take h1 h2).latest_eq
  rw [List.length_take, Nat.min_eq_left h2] at hkt
  have hk64 : k < 2 ^ 64 - 1 := by have := hh.fits; omega
  have hAo := hA.step hs
  unfold enumC at hv hb
  simp only [hkt] at hv hb
  generalize lastEntry (h.take k) = e at *
  subst hrev
  obtain ⟨body, hbody, hb'⟩ := Res.bind_eq_ok.1 hb
  cases hb'
  rw [serializeEnumBody_asOf cfg e hk64] at hbody
  rw [validEnum_asOf e hk64] at hv
  obtain ⟨d, v, hm, hi, hvf, hz⟩ := hv
  rcases x with ⟨n, xs⟩
  simp only at hi hvf
  subst hi
  rw [validFields_iff] at hvf
  obtain ⟨bs, hbs, hlt, rfl⟩ := (serializeEnumBody_ok cfg e _ hAo d v hm xs hvf.length_eq body).1 hbody
  have hm' := mem_variantArms.1 hm
  obtain ⟨s, hsm, rfl⟩ := List.mem_map.1 hm'.1
  have hsz := fun ho => ValidEnum.sizeFits (vs := ss.map VariantStep.old) (x := ⟨s.old.ident, xs⟩) ho (hz ho) bs
  refine ⟨s, hsm, d, bs, mem_variantArms.2 ⟨List.mem_map_of_mem hsm, hm'.2.1, ?_⟩, rfl, hm'.2.1, hvf, hbs, ?_, rfl⟩
  · rw [← discsAt_step hs]; exact hm'.2.2
  · intro ho
    have hw : (fun f : FieldDecl V => f.variantWire e) = fun f => f.plain := by
      funext f; unfold FieldDecl.variantWire; rw [if_pos ho]
    have h3 := hsz ho (hw ▸ hbs)
    have h4 := hlt ho
    change SizeFits (s.opts.size.getD .inline) bs.flatten at h3
    change s.opts.size.getD .inline = .varlen → _ at h4
    revert h3 h4
    cases s.opts.size.getD .inline with
    | inline => exact fun h _ => h
    | fixed n => exact fun h _ => h
    | varlen => exact fun _ h => h rfl

/-- An enum written by the program as it stood at revision `k`, its fields by other codecs. -/
theorem enumC_reads (cfg : Cfg) (h : List Entry) (hh : ValidHistory h) (ss : List (VariantStep V W))
    (k : Nat) (h1 : 1 ≤ k) (h2 : k ≤ h.length) (hs : ∀ s ∈ ss, ∀ f ∈ s.fields, f.SameDecl)
    (hA : AcceptedEnum (lastEntry (h.take k)) (ss.map VariantStep.new))
    (hleg : (lastEntry (h.take k)).optimised = false → ∀ s ∈ ss, ∀ f ∈ s.fields, f.LegacyReads w)
    (hopt : (lastEntry (h.take k)).optimised = true → ∀ s ∈ ss, ∀ f ∈ s.fields,
      f.old.plain.Reads w f.new.plain f.mig)
    (hn : (lastEntry (h.take k)).optimised = false → ∀ s ∈ ss, s.new.existsAt k = true →
      DistinctNames s.new.fields k h.length)
    (hx : (lastEntry (h.take k)).optimised = true → ∀ s ∈ ss, s.new.existsAt k = true →
      ∀ f ∈ s.new.fields, f.existsAt h.length = f.existsAt k) :
    (enumC cfg (h.take k) (variantsAsOf k (ss.map VariantStep.old))).Reads w (enumC cfg h (ss.map VariantStep.new))
      (fun x => (migrateVariantLive k ss x).bind fun y => (migrateEnum k h.length (ss.map VariantStep.new) y).ok?) := by
  have hmem : lastEntry (h.take k) ∈ h := List.mem_of_getElem? (hh.lastEntry_take h1 h2)
  have hrev : (lastEntry (h.take k)).revision = k := by
    have := hh.revision_get (hh.lastEntry_take h1 h2)
    omega
  have hkt := (hh.take h1 h2).latest_eq
  rw [List.length_take, Nat.min_eq_left h2] at hkt
  have hk64 : k < 2 ^ 64 - 1 := by have := hh.fits; omega
  have hAo := hA.step hs
  have key := enumC_wrote cfg hh h1 h2 hs hA
  have hfindS : ∀ s ∈ ss, s.new.existsAt k = true →
      (ss.filter fun s => s.new.existsAt k).find? (fun w => w.ident == s.ident) = some s := by
    intro s hsm hex
    have hnd := hA.nodup
    rw [hrev, List.filter_map, List.map_map] at hnd
    refine find?_unique (List.mem_filter.2 ⟨hsm, hex⟩) (by simp) fun w hw hwi => ?_
    exact inj_of_nodup_map _ hnd hw (List.mem_filter.2 ⟨hsm, hex⟩) (by simpa [VariantStep.new] using hwi)
  have dec : ∀ x b, (enumC cfg (h.take k) (variantsAsOf k (ss.map VariantStep.old))).valid x →
      (enumC cfg (h.take k) (variantsAsOf k (ss.map VariantStep.old))).enc x = .ok b → ∀ t,
      ((enumC cfg h (ss.map VariantStep.new)).dec (b ++ t)).ok? =
        ((migrateVariantLive k ss x).bind fun y => (migrateEnum k h.length (ss.map VariantStep.new) y).ok?).map
          (·, t) := by
    intro x b hv hb t
    obtain ⟨s, hsm, d, bs, harm, hi, hex, hv, hbs, hsz, rfl⟩ := key x b hv hb
    have hfs := hfindS s hsm hex
    have hal := aliveVariants_find hA (List.mem_map_of_mem hsm) (by rw [hrev]; exact hex)
    rw [hi] at hfs
    change List.find? (fun w : VariantDecl W => w.ident == s.ident) _ = _ at hal
    rw [hi] at hal
    unfold enumC migrateVariantLive
    simp only [hh.latest_eq, hfs, Option.bind_map]
    unfold migrateEnum
    generalize lastEntry (h.take k) = e at *
    subst hrev
    simp only [Function.comp_def, hal]
    rw [List.append_assoc, dispatch_hit cfg hh hmem]
    unfold deserializeEnumBody enumLayout migrateVariant
    by_cases ho : e.optimised
    · have hd := hA.disc_lt_32 ho harm
      have hw : (fun f : FieldDecl V => f.variantWire e) = fun f => f.plain := by
        funext f; unfold FieldDecl.variantWire; rw [if_pos ho]
      rw [hw] at hv hbs
      simp only [if_pos ho, List.cons_append]
      rw [Rd.bind_of_ok (readOptimisedTag_new hd _ _)]
      simp only [tag_variantId_new hd]
      have hft := hA.find_tag ho harm
      simp only at hft
      change List.find? (fun a : Nat × VariantDecl W => UInt8.ofNat a.1 == UInt8.ofNat d &&
        (a.2.opts.size.getD .inline).cls == (s.opts.size.getD .inline).cls) _ = _ at hft
      rw [hft]
      simp only [decodeOptimisedVariant]
      obtain ⟨ws, hdl, hmg⟩ := delivers_of_encodes (c := fun f => f.plain) (rd := fun f => f.plain.dec)
        (r := e.revision) s.fields x.fields bs (hs s hsm)
        (fun f hf _ => (hopt ho s hsm f hf).dec) hv hbs
      have hrun := decodeAlive_out (s.fields.map (·.new)) bs ws [] hdl
      rw [List.append_nil] at hrun
      change ((readSized (s.opts.size.getD .inline) >>= _) _).ok? = _
      rw [Rd.bind_of_ok (readSized_run _ bs.flatten t (hsz ho))]
      have hwi : (Rd.lift ((decodeAlive e.revision s.new.fields).within bs.flatten) t).ok? =
          (migrateAll id ws).map (·, t) := by
        rw [Rd.lift_ok?]
        show Option.map _ ((decodeAlive e.revision (s.fields.map (·.new))).within bs.flatten).ok? = _
        rw [Rd.within_ok? hrun]
      rw [Rd.bind_ok? hwi, hmg]
      cases hml : migrateLive (fun s => s.new.existsAt e.revision) FieldStep.mig s.fields x.fields with
      | none => rfl
      | some ys =>
        simp only [Option.bind_some]
        have hlen := migrateLive_length hml
        have hlen' : ys.length = (aliveFields s.new.fields e.revision).length := by
          rw [hlen]
          show _ = ((s.fields.map (·.new)).filter _).length
          rw [List.filter_map, List.length_map]
          rfl
        rw [migrate_of_same_length s.new.fields ys (hx ho s hsm hex) hlen']
        simp only [Res.ok_bind]
        by_cases htg : s.new.existsAt h.length
        · rw [if_pos htg, if_pos htg]; rfl
        · rw [if_neg htg, if_neg htg, Rd.lift_ok?]
    · have ho' : e.optimised = false := by simpa using ho
      have hw : (fun f : FieldDecl V => f.variantWire e) = fun f => f.legacyC := by
        funext f; unfold FieldDecl.variantWire; rw [if_neg ho]
      rw [hw] at hv hbs
      simp only [if_neg ho, List.append_assoc]
      rw [Rd.bind_of_ok (readU32_encU32 cfg (hA.disc_lt harm) _)]
      have hfd := hA.find_disc harm
      simp only at hfd
      simp only [hfd]
      unfold decodeLegacyVariant
      obtain ⟨ws, hdl, hmg⟩ := delivers_of_encodes (c := fun f => f.legacyC)
        (rd := fun f => if f.existsAt h.length then f.legacyC.dec else f.legacyC.dec)
        (r := e.revision) s.fields x.fields bs (hs s hsm)
        (fun f hf _ v b hv hb t => by rw [ite_self]; exact (hleg ho' s hsm f hf).dec v b hv hb t) hv hbs
      have hrun := decodeStructBody_out (live := fun f => f.legacyC.dec) (removed := fun f => f.legacyC.dec)
        s.new.fields bs ws t (hn ho' s hsm hex) hdl
      rw [Rd.bind_ok? hrun, hmg]
      cases hml : migrateLive (fun s => s.new.existsAt e.revision) FieldStep.mig s.fields x.fields with
      | none => rfl
      | some ys =>
        simp only [Option.bind_some]
        cases hm : migrate e.revision h.length s.new.fields ys with
        | err x => rfl
        | panic => rfl
        | ok zs =>
          simp only [Res.ok?, Option.bind_some, Res.ok_bind]
          by_cases htg : s.new.existsAt h.length
          · rw [if_pos htg, if_pos htg]; rfl
          · rw [if_neg htg, if_neg htg, lift_andRest]
            cases s.new.convert zs e.revision <;> rfl
  have skip : ∀ x b, (enumC cfg (h.take k) (variantsAsOf k (ss.map VariantStep.old))).valid x →
      (enumC cfg (h.take k) (variantsAsOf k (ss.map VariantStep.old))).enc x = .ok b → ∀ t,
      Lands w ((enumC cfg h (ss.map VariantStep.new)).skip (b ++ t)) t ∧
      Lands w ((enumC cfg h (ss.map VariantStep.new)).skipS (b ++ t)) t := by
    intro x b hv hb t
    obtain ⟨s, hsm, d, bs, harm, hi, hex, hv, hbs, hsz, rfl⟩ := key x b hv hb
    unfold enumC
    simp only [hh.latest_eq]
    generalize lastEntry (h.take k) = e at *
    subst hrev
    rw [List.append_assoc, dispatch_hit cfg hh hmem, dispatch_hit cfg hh hmem]
    by_cases ho : e.optimised
    · have hd := hA.disc_lt_32 ho harm
      have hlay : enumLayout cfg e d (s.opts.size.getD .inline) bs ++ t =
          Tag.new (UInt8.ofNat d) (s.opts.size.getD .inline).cls :: (sizedPayload (s.opts.size.getD .inline) bs.flatten ++ t) := by
        unfold enumLayout; rw [if_pos ho]; rfl
      rw [hlay]
      have hrs := readSized_run _ bs.flatten t (hsz ho)
      have htag := readOptimisedTag_new hd (s.opts.size.getD .inline).cls
        (sizedPayload (s.opts.size.getD .inline) bs.flatten ++ t)
      rw [skipEnum_known cfg e _ _ hA ho htag harm (by rw [tag_variantId_new hd]) rfl,
        skipEnum_known cfg e _ _ hA ho htag harm (by rw [tag_variantId_new hd]) rfl]
      constructor
      · obtain ⟨x, hx⟩ := readSized_cases (s.opts.size.getD .inline) (adv := Rd.advance)
          (fun n => Rd.Agree.readExact_advance n) _ _ _ hrs
        exact .ok hx
      · obtain ⟨x, hx⟩ := readSized_cases (s.opts.size.getD .inline) (adv := Rd.consume)
          (fun n => Rd.Agree.readExact_consume n) _ _ _ hrs
        exact .ok hx
    · have ho' : e.optimised = false := by simpa using ho
      have hw : (fun f : FieldDecl V => f.variantWire e) = fun f => f.legacyC := by
        funext f; unfold FieldDecl.variantWire; rw [if_neg ho]
      rw [hw] at hv hbs
      have hl := hleg ho' s hsm
      unfold skipEnumBody enumLayout
      simp only [if_neg ho, List.append_assoc]
      have hfd := hA.find_disc harm
      simp only at hfd
      rw [Rd.bind_of_ok (readU32_encU32 cfg (hA.disc_lt harm) _),
        Rd.bind_of_ok (readU32_encU32 cfg (hA.disc_lt harm) _)]
      simp only [hfd]
      exact ⟨skipFields_out s.fields x.fields bs t (hs s hsm) (fun f hf _ => (hl f hf).skip) hv hbs,
        skipFields_out s.fields x.fields bs t (hs s hsm) (fun f hf _ => (hl f hf).skipS) hv hbs⟩
  exact ⟨dec, fun vs b hv hb t => (skip vs b hv hb t).1, fun vs b hv hb t => (skip vs b hv hb t).2,
    fun vs b hv hb t => Rd.ok?_discard (dec vs b hv hb t)⟩

end Revision
