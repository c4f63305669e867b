import Verif.Spec.Nested
import Verif.Proofs.DeriveTy

/-! Helper lemmas: how one program's encodings are read by another, type by type. -/

namespace Revision

theorem Res.ok?_eq_some {x : Res α} {a : α} : x.ok? = some a ↔ x = .ok a := by
  cases x <;> simp [Res.ok?]

theorem Res.ok?_andRest (x : Res α) (t : Bytes) : (x.andRest t).ok? = x.ok?.map (·, t) := by
  cases x <;> rfl

theorem Res.ok?_bind (x : Res α) (f : α → Res β) : (x >>= f).ok? = x.ok?.bind fun a => (f a).ok? := by
  cases x <;> rfl

theorem Rd.bind_ok? {m : Rd α} {f : α → Rd β} {s r : Bytes} {x : Option α}
    (h : (m s).ok? = x.map (·, r)) : ((m >>= f) s).ok? = x.bind fun a => (f a r).ok? := by
  cases x with
  | some a => rw [Rd.bind_of_ok (Res.ok?_eq_some.1 h)]; rfl
  | none =>
    cases hm : m s with
    | ok p => rw [hm] at h; cases h
    | err e => rw [Rd.bind_of_err hm]; rfl
    | panic => rw [Rd.bind_of_panic hm]; rfl

theorem Rd.ok?_mapErr (m : Rd α) (f : Err → Err) (s : Bytes) : ((m.mapErr f) s).ok? = (m s).ok? := by
  show ((m s).mapErr f).ok? = _
  cases m s <;> rfl

theorem Rd.ok?_discard {m : Rd α} {s r : Bytes} {x : Option α} (h : (m s).ok? = x.map (·, r)) :
    (m.discard s).ok? = x.map fun _ => ((), r) := by
  unfold Rd.discard
  rw [Rd.bind_ok? h]
  cases x <;> rfl

theorem Rd.bind_map_ok? {m : Rd α} {f : α → β} {s r : Bytes} {x : Option α}
    (h : (m s).ok? = x.map (·, r)) : ((m >>= fun a => pure (f a)) s).ok? = (x.map f).map (·, r) := by
  rw [Rd.bind_ok? h]
  cases x <;> rfl

theorem Codec.Faithful.reads {c : Codec α} (h : c.Faithful) : c.Reads w c some where
  dec v b hv hb t := by rw [h.round_trip v b hv hb t]; rfl
  skip v b hv hb t := .ok (h.skip_after v b hv hb t)
  skipS v b hv hb t := .ok (h.skipS_after v b hv hb t)
  check v b hv hb t := by rw [h.check_after v b hv hb t]; rfl

theorem Codec.Reads.faithful {c : Codec α} {mig : α → Option α} (h : c.Reads false c mig)
    (hm : ∀ v, c.valid v → mig v = some v) : c.Faithful where
  round_trip v b hv hb t := by
    have := h.dec v b hv hb t
    rw [hm v hv] at this
    exact Res.ok?_eq_some.1 this
  skip_after v b hv hb t := (h.skip v b hv hb t).strict
  skipS_after v b hv hb t := (h.skipS v b hv hb t).strict
  check_after v b hv hb t := by
    have := h.check v b hv hb t
    rw [hm v hv] at this
    exact Res.ok?_eq_some.1 this

theorem Codec.Reads.mono {o : Codec α} {n : Codec β} {m m' : α → Option β} (h : o.Reads w n m)
    (hm : ∀ v, o.valid v → m v = m' v) : o.Reads w n m' where
  dec v b hv hb t := by rw [← hm v hv]; exact h.dec v b hv hb t
  skip := h.skip
  skipS := h.skipS
  check v b hv hb t := by rw [← hm v hv]; exact h.check v b hv hb t

/-- Two programs with the same codec for a type, up to what allocators grant. -/
theorem Codec.Faithful.reads_of {o n : Codec α} (h : n.Faithful) (he : o.enc = n.enc)
    (hv : ∀ v, o.valid v → n.valid v) : o.Reads w n some where
  dec v b h1 hb t := by rw [h.round_trip v b (hv v h1) (he ▸ hb) t]; rfl
  skip v b h1 hb t := .ok (h.skip_after v b (hv v h1) (he ▸ hb) t)
  skipS v b h1 hb t := .ok (h.skipS_after v b (hv v h1) (he ▸ hb) t)
  check v b h1 hb t := by rw [h.check_after v b (hv v h1) (he ▸ hb) t]; rfl

section
variable {o : Codec α} {n : Codec β} {mig : α → Option β} {o' : Codec γ} {n' : Codec δ} {mig' : γ → Option δ}

theorem wrapC_reads (h : o.Reads w n mig) : (wrapC o).Reads w (wrapC n) mig where
  dec := h.dec
  skip := h.skip
  skipS := h.skipS
  check v b hv hb t := Rd.ok?_discard (h.dec v b hv hb t)

theorem optionC_reads (cfg : Cfg) (h : o.Reads w n mig) :
    (optionC cfg o).Reads w (optionC cfg n) (migrateOption mig) := by
  have dec : ∀ v b, (optionC cfg o).valid v → (optionC cfg o).enc v = .ok b → ∀ t,
      ((optionC cfg n).dec (b ++ t)).ok? =
        (migrateOption mig v).map (·, t) := by
    intro v b hv hb t
    cases v with
    | none =>
      cases hb
      simp only [optionC]
      rw [Rd.bind_of_ok (decInt_encInt cfg .u8 0 t)]
      rfl
    | some a =>
      obtain ⟨x, hx, hb⟩ := Res.bind_eq_ok.1 hb
      cases hb
      simp only [optionC]
      rw [List.append_assoc, Rd.bind_of_ok (decInt_encInt cfg .u8 1 _), if_neg (by decide), if_pos rfl,
        Rd.bind_map_ok? (h.dec a x hv hx t)]
      rfl
  refine ⟨dec, ?_, ?_, fun v b hv hb t => Rd.ok?_discard (dec v b hv hb t)⟩
  · intro v b hv hb t
    cases v with
    | none =>
      cases hb
      simp only [optionC]
      rw [Rd.bind_of_ok (decInt_encInt cfg .u8 0 t)]
      exact .ok rfl
    | some a =>
      obtain ⟨x, hx, hb⟩ := Res.bind_eq_ok.1 hb
      cases hb
      simp only [optionC]
      rw [List.append_assoc, Rd.bind_of_ok (decInt_encInt cfg .u8 1 _), if_neg (by decide), if_pos rfl]
      exact h.skip a x hv hx t
  · intro v b hv hb t
    cases v with
    | none =>
      cases hb
      simp only [optionC]
      rw [Rd.bind_of_ok (decInt_encInt cfg .u8 0 t)]
      exact .ok rfl
    | some a =>
      obtain ⟨x, hx, hb⟩ := Res.bind_eq_ok.1 hb
      cases hb
      simp only [optionC]
      rw [List.append_assoc, Rd.bind_of_ok (decInt_encInt cfg .u8 1 _), if_neg (by decide), if_pos rfl]
      exact h.skipS a x hv hx t

theorem resultC_reads (cfg : Cfg) (h : o.Reads w n mig) (h' : o'.Reads w n' mig') :
    (resultC cfg o o').Reads w (resultC cfg n n')
      (migrateResult mig mig') := by
  have dec : ∀ v b, (resultC cfg o o').valid v → (resultC cfg o o').enc v = .ok b → ∀ t,
      ((resultC cfg n n').dec (b ++ t)).ok? =
        (migrateResult mig mig' v).map (·, t) := by
    intro v b hv hb t
    cases v with
    | ok a =>
      obtain ⟨x, hx, hb⟩ := Res.bind_eq_ok.1 hb
      cases hb
      simp only [resultC]
      rw [List.append_assoc, Rd.bind_of_ok (readU32_encU32 cfg (by decide) _), if_pos rfl,
        Rd.bind_map_ok? ((Rd.ok?_mapErr _ _ _).trans (h.dec a x hv hx t))]
      rfl
    | error a =>
      obtain ⟨x, hx, hb⟩ := Res.bind_eq_ok.1 hb
      cases hb
      simp only [resultC]
      rw [List.append_assoc, Rd.bind_of_ok (readU32_encU32 cfg (by decide) _), if_neg (by decide), if_pos rfl,
        Rd.bind_map_ok? ((Rd.ok?_mapErr _ _ _).trans (h'.dec a x hv hx t))]
      rfl
  refine ⟨dec, ?_, ?_, fun v b hv hb t => Rd.ok?_discard (dec v b hv hb t)⟩
  · intro v b hv hb t
    cases v with
    | ok a =>
      obtain ⟨x, hx, hb⟩ := Res.bind_eq_ok.1 hb
      cases hb
      simp only [resultC]
      rw [List.append_assoc, Rd.bind_of_ok (readU32_encU32 cfg (by decide) _), if_pos rfl]
      exact h.skip a x hv hx t
    | error a =>
      obtain ⟨x, hx, hb⟩ := Res.bind_eq_ok.1 hb
      cases hb
      simp only [resultC]
      rw [List.append_assoc, Rd.bind_of_ok (readU32_encU32 cfg (by decide) _), if_neg (by decide), if_pos rfl]
      exact h'.skip a x hv hx t
  · intro v b hv hb t
    cases v with
    | ok a =>
      obtain ⟨x, hx, hb⟩ := Res.bind_eq_ok.1 hb
      cases hb
      simp only [resultC]
      rw [List.append_assoc, Rd.bind_of_ok (readU32_encU32 cfg (by decide) _), if_pos rfl]
      exact h.skipS a x hv hx t
    | error a =>
      obtain ⟨x, hx, hb⟩ := Res.bind_eq_ok.1 hb
      cases hb
      simp only [resultC]
      rw [List.append_assoc, Rd.bind_of_ok (readU32_encU32 cfg (by decide) _), if_neg (by decide), if_pos rfl]
      exact h'.skipS a x hv hx t

theorem boundC_reads (cfg : Cfg) (h : o.Reads w n mig) :
    (boundC cfg o).Reads w (boundC cfg n) (migrateBound mig) := by
  have dec : ∀ v b, (boundC cfg o).valid v → (boundC cfg o).enc v = .ok b → ∀ t,
      ((boundC cfg n).dec (b ++ t)).ok? =
        (migrateBound mig v).map (·, t) := by
    intro v b hv hb t
    cases v with
    | unbounded =>
      cases hb
      simp only [boundC]
      rw [Rd.bind_of_ok (readU32_encU32 cfg (by decide) _)]
      rfl
    | included a =>
      obtain ⟨x, hx, hb⟩ := Res.bind_eq_ok.1 hb
      cases hb
      simp only [boundC]
      rw [List.append_assoc, Rd.bind_of_ok (readU32_encU32 cfg (by decide) _), if_neg (by decide), if_pos rfl,
        Rd.bind_map_ok? ((Rd.ok?_mapErr _ _ _).trans (h.dec a x hv hx t))]
      rfl
    | excluded a =>
      obtain ⟨x, hx, hb⟩ := Res.bind_eq_ok.1 hb
      cases hb
      simp only [boundC]
      rw [List.append_assoc, Rd.bind_of_ok (readU32_encU32 cfg (by decide) _), if_neg (by decide), if_neg (by decide),
        if_pos rfl, Rd.bind_map_ok? ((Rd.ok?_mapErr _ _ _).trans (h.dec a x hv hx t))]
      rfl
  refine ⟨dec, ?_, ?_, fun v b hv hb t => Rd.ok?_discard (dec v b hv hb t)⟩
  · intro v b hv hb t
    cases v with
    | unbounded =>
      cases hb
      simp only [boundC]
      rw [Rd.bind_of_ok (readU32_encU32 cfg (by decide) _)]
      exact .ok rfl
    | included a =>
      obtain ⟨x, hx, hb⟩ := Res.bind_eq_ok.1 hb
      cases hb
      simp only [boundC]
      rw [List.append_assoc, Rd.bind_of_ok (readU32_encU32 cfg (by decide) _), if_neg (by decide), if_pos rfl]
      exact h.skip a x hv hx t
    | excluded a =>
      obtain ⟨x, hx, hb⟩ := Res.bind_eq_ok.1 hb
      cases hb
      simp only [boundC]
      rw [List.append_assoc, Rd.bind_of_ok (readU32_encU32 cfg (by decide) _), if_neg (by decide), if_neg (by decide),
        if_pos rfl]
      exact h.skip a x hv hx t
  · intro v b hv hb t
    cases v with
    | unbounded =>
      cases hb
      simp only [boundC]
      rw [Rd.bind_of_ok (readU32_encU32 cfg (by decide) _)]
      exact .ok rfl
    | included a =>
      obtain ⟨x, hx, hb⟩ := Res.bind_eq_ok.1 hb
      cases hb
      simp only [boundC]
      rw [List.append_assoc, Rd.bind_of_ok (readU32_encU32 cfg (by decide) _), if_neg (by decide), if_pos rfl]
      exact h.skipS a x hv hx t
    | excluded a =>
      obtain ⟨x, hx, hb⟩ := Res.bind_eq_ok.1 hb
      cases hb
      simp only [boundC]
      rw [List.append_assoc, Rd.bind_of_ok (readU32_encU32 cfg (by decide) _), if_neg (by decide), if_neg (by decide),
        if_pos rfl]
      exact h.skipS a x hv hx t

theorem pairC_reads (h : o.Reads w n mig) (h' : o'.Reads w n' mig') :
    (pairC o o').Reads w (pairC n n') (migratePair mig mig') where
  dec := by
    rintro ⟨v, w⟩ b ⟨hv, hw⟩ hb t
    obtain ⟨x, hx, hb⟩ := Res.bind_eq_ok.1 hb
    obtain ⟨y, hy, hb⟩ := Res.bind_eq_ok.1 hb
    cases hb
    simp only [pairC]
    rw [List.append_assoc, Rd.bind_ok? (h.dec v x hv hx _)]
    unfold migratePair
    cases mig v with
    | none => rfl
    | some a =>
      simp only [Option.bind_some]
      rw [Rd.bind_map_ok? (h'.dec w y hw hy t)]
      cases mig' w <;> rfl
  skip := by
    rintro ⟨v, w⟩ b ⟨hv, hw⟩ hb t
    obtain ⟨x, hx, hb⟩ := Res.bind_eq_ok.1 hb
    obtain ⟨y, hy, hb⟩ := Res.bind_eq_ok.1 hb
    cases hb
    simp only [pairC]
    rw [List.append_assoc]
    exact (h.skip v x hv hx _).bind (h'.skip w y hw hy t)
  skipS := by
    rintro ⟨v, w⟩ b ⟨hv, hw⟩ hb t
    obtain ⟨x, hx, hb⟩ := Res.bind_eq_ok.1 hb
    obtain ⟨y, hy, hb⟩ := Res.bind_eq_ok.1 hb
    cases hb
    simp only [pairC]
    rw [List.append_assoc]
    exact (h.skipS v x hv hx _).bind (h'.skipS w y hw hy t)
  check := by
    rintro ⟨v, w⟩ b ⟨hv, hw⟩ hb t
    obtain ⟨x, hx, hb⟩ := Res.bind_eq_ok.1 hb
    obtain ⟨y, hy, hb⟩ := Res.bind_eq_ok.1 hb
    cases hb
    simp only [pairC]
    rw [List.append_assoc]
    have h1 := h.check v x hv hx (y ++ t)
    have h2 := h'.check w y hw hy t
    unfold migratePair
    simp only at h1 h2 ⊢
    cases hm : mig v with
    | none => rw [hm] at h1; rw [Rd.bind_ok? (x := none) (r := []) h1]; rfl
    | some a =>
      rw [hm] at h1
      rw [Rd.bind_of_ok (Res.ok?_eq_some.1 h1), h2]
      cases mig' w <;> rfl

/-! ### Sequences -/

theorem encList_cons {f : α → Res Bytes} {a : α} {l : List α} {b : Bytes} :
    encList f (a :: l) = .ok b → ∃ x y, f a = .ok x ∧ encList f l = .ok y ∧ b = x ++ y := by
  intro h
  obtain ⟨x, hx, h⟩ := Res.bind_eq_ok.1 h
  obtain ⟨y, hy, h⟩ := Res.bind_eq_ok.1 h
  cases h
  exact ⟨x, y, hx, hy, rfl⟩

theorem readN_reads {rd : Rd β} (h : ∀ v b, o.valid v → o.enc v = .ok b → ∀ t, (rd (b ++ t)).ok? = (mig v).map (·, t)) :
    ∀ (l : List α) (b : Bytes), (∀ a ∈ l, o.valid a) → encList o.enc l = .ok b → ∀ t,
      ((Rd.readN l.length rd) (b ++ t)).ok? = (migrateAll mig l).map (·, t)
  | [], b, _, hb, t => by cases hb; rfl
  | a :: l, b, hv, hb, t => by
    obtain ⟨x, y, hx, hy, rfl⟩ := encList_cons hb
    simp only [List.length_cons, Rd.readN, migrateAll]
    rw [List.append_assoc, Rd.bind_ok? (h a x (hv a List.mem_cons_self) hx _)]
    cases mig a with
    | none => rfl
    | some w =>
      have ih := readN_reads h l y (fun c hc => hv c (List.mem_cons_of_mem _ hc)) hy t
      simp only [Option.bind_some]
      rw [Rd.bind_map_ok? ih]
      cases migrateAll mig l <;> rfl

theorem repeatN_reads {k : Rd Unit} (h : ∀ v b, o.valid v → o.enc v = .ok b → ∀ t, Lands w (k (b ++ t)) t) :
    ∀ (l : List α) (b : Bytes), (∀ a ∈ l, o.valid a) → encList o.enc l = .ok b → ∀ t,
      Lands w ((Rd.repeatN l.length k) (b ++ t)) t
  | [], b, _, hb, t => by cases hb; exact .ok rfl
  | a :: l, b, hv, hb, t => by
    obtain ⟨x, y, hx, hy, rfl⟩ := encList_cons hb
    simp only [List.length_cons, Rd.repeatN]
    rw [List.append_assoc]
    exact (h a x (hv a List.mem_cons_self) hx _).bind
      (repeatN_reads h l y (fun c hc => hv c (List.mem_cons_of_mem _ hc)) hy t)

theorem repeatN_check_reads {k : Rd Unit}
    (h : ∀ v b, o.valid v → o.enc v = .ok b → ∀ t, (k (b ++ t)).ok? = (mig v).map fun _ => ((), t)) :
    ∀ (l : List α) (b : Bytes), (∀ a ∈ l, o.valid a) → encList o.enc l = .ok b → ∀ t,
      ((Rd.repeatN l.length k) (b ++ t)).ok? = (migrateAll mig l).map fun _ => ((), t)
  | [], b, _, hb, t => by cases hb; rfl
  | a :: l, b, hv, hb, t => by
    obtain ⟨x, y, hx, hy, rfl⟩ := encList_cons hb
    simp only [List.length_cons, Rd.repeatN, migrateAll]
    rw [List.append_assoc]
    have h1 := h a x (hv a List.mem_cons_self) hx (y ++ t)
    cases hm : mig a with
    | none => rw [hm] at h1; rw [Rd.bind_ok? (x := none) (r := []) h1]; rfl
    | some w =>
      rw [hm] at h1
      rw [Rd.bind_of_ok (Res.ok?_eq_some.1 h1),
        repeatN_check_reads h l y (fun c hc => hv c (List.mem_cons_of_mem _ hc)) hy t]
      cases migrateAll mig l <;> rfl

theorem arrayC_reads (k : Nat) (h : o.Reads w n mig) : (arrayC k o).Reads w (arrayC k n) (migrateAll mig) where
  dec := by rintro l b ⟨rfl, hv⟩ hb t; exact readN_reads h.dec l b hv hb t
  skip := by rintro l b ⟨rfl, hv⟩ hb t; exact repeatN_reads h.skip l b hv hb t
  skipS := by rintro l b ⟨rfl, hv⟩ hb t; exact repeatN_reads h.skipS l b hv hb t
  check := by rintro l b ⟨rfl, hv⟩ hb t; exact repeatN_check_reads h.check l b hv hb t

theorem vecC_reads (cfg : Cfg) {cap cap' : Nat → Bool} (hcap : ∀ k, cap k = true → cap' k = true)
    (h : o.Reads w n mig) : (vecC cfg cap o).Reads w (vecC cfg cap' n) (migrateAll mig) := by
  have dec : ∀ v b, (vecC cfg cap o).valid v → (vecC cfg cap o).enc v = .ok b → ∀ t,
      ((vecC cfg cap' n).dec (b ++ t)).ok? = (migrateAll mig v).map (·, t) := by
    rintro l b ⟨hl, hc, hv⟩ hb t
    obtain ⟨x, hx, hb⟩ := Res.bind_eq_ok.1 hb
    cases hb
    simp only [vecC]
    rw [List.append_assoc, Rd.bind_of_ok (readLen_encLen cfg hl _)]
    by_cases h0 : l.length = 0
    · have : l = [] := List.length_eq_zero_iff.1 h0
      subst this
      cases hx
      rfl
    · rw [if_neg h0, hcap _ (hc (by intro e; simp [e] at h0)), Rd.alloc_true, Rd.pure_bind]
      exact readN_reads h.dec l x hv hx t
  refine ⟨dec, ?_, ?_, fun v b hv hb t => Rd.ok?_discard (dec v b hv hb t)⟩
  · rintro l b ⟨hl, hc, hv⟩ hb t
    obtain ⟨x, hx, hb⟩ := Res.bind_eq_ok.1 hb
    cases hb
    simp only [vecC]
    rw [List.append_assoc, Rd.bind_of_ok (readLen_encLen cfg hl _)]
    exact repeatN_reads h.skip l x hv hx t
  · rintro l b ⟨hl, hc, hv⟩ hb t
    obtain ⟨x, hx, hb⟩ := Res.bind_eq_ok.1 hb
    cases hb
    simp only [vecC]
    rw [List.append_assoc, Rd.bind_of_ok (readLen_encLen cfg hl _)]
    exact repeatN_reads h.skipS l x hv hx t

theorem collC_reads (cfg : Cfg) {cap cap' : Nat → Bool} (hcap : ∀ k, cap k = true → cap' k = true)
    (h : o.Reads w n mig) (inv inv') (build : List α → List α) (build' : List β → List β) :
    (collC cfg cap o inv build).Reads w (collC cfg cap' n inv' build') (fun l => (migrateAll mig l).map build') := by
  have dec : ∀ v b, (collC cfg cap o inv build).valid v → (collC cfg cap o inv build).enc v = .ok b → ∀ t,
      ((collC cfg cap' n inv' build').dec (b ++ t)).ok? = ((migrateAll mig v).map build').map (·, t) := by
    rintro l b ⟨hl, hc, hv, _⟩ hb t
    obtain ⟨x, hx, hb⟩ := Res.bind_eq_ok.1 hb
    cases hb
    simp only [collC, readColl]
    rw [List.append_assoc, Rd.bind_of_ok (readLen_encLen cfg hl _), hcap _ hc, Rd.alloc_true, Rd.pure_bind,
      Rd.bind_map_ok? (readN_reads h.dec l x hv hx t)]
  refine ⟨dec, ?_, ?_, fun v b hv hb t => ?_⟩
  · rintro l b ⟨hl, hc, hv, _⟩ hb t
    obtain ⟨x, hx, hb⟩ := Res.bind_eq_ok.1 hb
    cases hb
    simp only [collC]
    rw [List.append_assoc, Rd.bind_of_ok (readLen_encLen cfg hl _)]
    exact repeatN_reads h.skip l x hv hx t
  · rintro l b ⟨hl, hc, hv, _⟩ hb t
    obtain ⟨x, hx, hb⟩ := Res.bind_eq_ok.1 hb
    cases hb
    simp only [collC]
    rw [List.append_assoc, Rd.bind_of_ok (readLen_encLen cfg hl _)]
    exact repeatN_reads h.skipS l x hv hx t
  · exact Rd.ok?_discard (dec v b hv hb t)

end

end Revision
