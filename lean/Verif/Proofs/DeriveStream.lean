import Verif.Proofs.DeriveWalk

/-! Going through a struct with a streaming walker. -/

namespace Revision

variable {V : Type}

/-- The bytes from some field of a record of revision `cur` on. -/
inductive FieldStream (cur : Nat) : List (FieldDecl V) → List V → Bytes → Prop
  | nil : FieldStream cur [] [] []
  | stored {f fs v vs b s} : f.existsAt cur = true → f.optimisedC.valid v → f.optimisedC.enc v = .ok b →
      FieldStream cur fs vs s → FieldStream cur (f :: fs) (v :: vs) (b ++ s)
  | absent {f fs v vs s} : f.existsAt cur = false → f.dflt cur = .ok v →
      FieldStream cur fs vs s → FieldStream cur (f :: fs) (v :: vs) s

theorem FieldStream.of_migrated {cur tgt : Nat} : ∀ (fs : List (FieldDecl V)) (vs : List V) (bs : List Bytes)
    (all : List (FieldDecl V × V)), NoneRemoved fs cur tgt →
    AllValid (fun f => f.optimisedC) (aliveFields fs cur) vs → Encodes (fun f => f.optimisedC) (aliveFields fs cur) vs bs →
    migratedFields cur tgt fs vs = .ok all →
    FieldStream cur (aliveFields fs tgt) (all.map (·.2)) bs.flatten ∧ ∀ p ∈ all, p.1.existsAt tgt = true
  | [], vs, bs, all, _, hv, he, hm => by
    cases he
    cases hm
    exact ⟨.nil, by simp⟩
  | f :: fs, vs, bs, all, hk, hv, he, hm => by
    have hk' : NoneRemoved fs cur tgt := fun g hg => hk g (List.mem_cons_of_mem _ hg)
    have ih := FieldStream.of_migrated (cur := cur) (tgt := tgt) fs
    unfold aliveFields at hv he ih ⊢
    unfold migratedFields at hm
    cases hc : f.existsAt cur with
    | true =>
      have ht := hk f List.mem_cons_self hc
      rw [List.filter_cons_of_pos (by simpa using hc)] at hv he
      rw [List.filter_cons_of_pos (by simpa using ht)]
      cases he with
      | cons hb he =>
        cases hv with
        | cons hvv hv =>
          rw [if_pos hc] at hm
          obtain ⟨rest, hr, hm⟩ := Res.bind_eq_ok.1 hm
          cases hm
          obtain ⟨h1, h2⟩ := ih _ _ _ hk' hv he hr
          refine ⟨.stored hc hvv hb h1, ?_⟩
          intro p hp
          rcases List.mem_cons.1 hp with rfl | hp
          · exact ht
          · exact h2 p hp
    | false =>
      rw [List.filter_cons_of_neg (by simp [hc])] at hv he
      rw [if_neg (by simp [hc])] at hm
      cases ht : f.existsAt tgt with
      | false =>
        rw [List.filter_cons_of_neg (by simp [ht])]
        rw [if_neg (by simp [ht])] at hm
        exact ih _ _ _ hk' hv he hm
      | true =>
        rw [List.filter_cons_of_pos (by simpa using ht)]
        rw [if_pos ht] at hm
        obtain ⟨v, hd, hm⟩ := Res.bind_eq_ok.1 hm
        obtain ⟨rest, hr, hm⟩ := Res.bind_eq_ok.1 hm
        cases hm
        obtain ⟨h1, h2⟩ := ih _ _ _ hk' hv he hr
        refine ⟨.absent hc hd h1, ?_⟩
        intro p hp
        rcases List.mem_cons.1 hp with rfl | hp
        · exact ht
        · exact h2 p hp

theorem FieldStream.of_migrate {cur tgt : Nat} (fs : List (FieldDecl V)) (vs new : List V) (bs : List Bytes)
    (hk : NoneRemoved fs cur tgt)
    (hv : AllValid (fun f => f.optimisedC) (aliveFields fs cur) vs)
    (he : Encodes (fun f => f.optimisedC) (aliveFields fs cur) vs bs) (hm : migrate cur tgt fs vs = .ok new) :
    FieldStream cur (aliveFields fs tgt) new bs.flatten := by
  unfold migrate at hm
  obtain ⟨all, ha, hm⟩ := Res.bind_eq_ok.1 hm
  obtain ⟨h1, h2⟩ := FieldStream.of_migrated fs vs bs all hk hv he ha
  rw [List.filter_eq_nil_iff.2 (fun p hp => by simp [h2 p hp]), List.filter_eq_self.2 (fun p hp => by simp [h2 p hp])] at hm
  cases hm
  exact h1

/-- Passing fields by a plan. -/
theorem FieldStream.pass {cur tgt : Nat} (hle : cur ≤ tgt) {fs : List (FieldDecl V)} {vs : List V} {s : Bytes}
    (h : FieldStream cur fs vs s) (ht : ∀ f ∈ fs, f.existsAt tgt = true)
    (hf : ∀ f ∈ fs, f.existsAt cur = true → f.optimisedC.Faithful) (t : Bytes) :
    ∀ (idx : Nat) (plan : List Bool), plan.length ≤ vs.length →
    ∃ s', FieldStream cur (fs.drop plan.length) (vs.drop plan.length) s' ∧
      passFields idx fs plan (.wire cur) (s ++ t) = .ok ((planSees plan vs, .wire cur), s' ++ t) := by
  induction h with
  | nil =>
    intro idx plan hp
    cases plan with
    | nil => exact ⟨[], .nil, rfl⟩
    | cons d plan => simp at hp
  | @stored f fs v vs b s hc hvv hb hs ih =>
    intro idx plan hp
    cases plan with
    | nil => exact ⟨_, .stored hc hvv hb hs, rfl⟩
    | cons d plan =>
      obtain ⟨s', h1, h2⟩ := ih (fun g hg => ht g (List.mem_cons_of_mem _ hg))
        (fun g hg => hf g (List.mem_cons_of_mem _ hg)) (idx + 1) plan (by simpa using hp)
      have hpr := present_eq hle (ht f List.mem_cons_self)
      rw [hc] at hpr
      have hff := hf f List.mem_cons_self hc
      refine ⟨s', h1, ?_⟩
      rw [List.append_assoc]
      cases d with
      | true =>
        unfold passFields
        simp only [StructRepr.decodeField, hpr, if_true, Rd.bind_assoc, Rd.pure_bind]
        rw [Rd.bind_of_ok (hff.round_trip v b hvv hb (s ++ t)), Rd.bind_of_ok h2]
        rfl
      | false =>
        unfold passFields
        simp only [StructRepr.skipField, hpr, if_true, Rd.bind_assoc, Rd.pure_bind]
        rw [Rd.bind_of_ok (hff.skip_after v b hvv hb (s ++ t)), Rd.bind_of_ok h2]
        rfl
  | @absent f fs v vs s hc hd hs ih =>
    intro idx plan hp
    cases plan with
    | nil => exact ⟨_, .absent hc hd hs, rfl⟩
    | cons d plan =>
      obtain ⟨s', h1, h2⟩ := ih (fun g hg => ht g (List.mem_cons_of_mem _ hg))
        (fun g hg => hf g (List.mem_cons_of_mem _ hg)) (idx + 1) plan (by simpa using hp)
      have hpr := present_eq hle (ht f List.mem_cons_self)
      rw [hc] at hpr
      refine ⟨s', h1, ?_⟩
      cases d with
      | true =>
        unfold passFields
        simp only [StructRepr.decodeField, hpr, Bool.false_eq_true, if_false, Rd.pure_bind, hd, Rd.lift_ok]
        rw [Rd.bind_of_ok h2]
        rfl
      | false =>
        unfold passFields
        simp only [StructRepr.skipField, hpr, Bool.false_eq_true, if_false, Rd.pure_bind]
        rw [Rd.bind_of_ok h2]
        rfl

theorem FieldStream.eq_nil {cur : Nat} {fs : List (FieldDecl V)} {s : Bytes} (h : FieldStream cur fs [] s) : s = [] := by
  cases h
  rfl

theorem consumed_run {m : Rd Unit} {b t : Bytes} (h : m (b ++ t) = .ok ((), t)) :
    StructRepr.consumed m (b ++ t) = .ok (b, t) := by
  unfold StructRepr.consumed
  simp [h]

theorem Encodes.congr {c d : FieldDecl V → Codec V} {fs vs bs} (h : Encodes c fs vs bs) :
    (∀ f ∈ fs, c f = d f) → Encodes d fs vs bs := by
  induction h with
  | nil => intro _; exact .nil
  | cons h1 _ ih =>
    intro hc
    exact .cons (hc _ List.mem_cons_self ▸ h1) (ih fun f hf => hc f (List.mem_cons_of_mem _ hf))

theorem AllValid.congr {c d : FieldDecl V → Codec V} {fs vs} (h : AllValid c fs vs) :
    (∀ f ∈ fs, c f = d f) → AllValid d fs vs := by
  induction h with
  | nil => intro _; exact .nil
  | cons h1 _ ih =>
    intro hc
    exact .cons (hc _ List.mem_cons_self ▸ h1) (ih fun f hf => hc f (List.mem_cons_of_mem _ hf))

/-- Passing fields of converted data by a plan. -/
theorem pass_converted {fs : List (FieldDecl V)} {vs : List V} {bs : List Bytes}
    (he : Encodes (fun f => f.plain) fs vs bs) (hv : AllValid (fun f => f.plain) fs vs)
    (hf : ∀ f ∈ fs, f.plain.Faithful) (t : Bytes) :
    ∀ (idx : Nat) (plan : List Bool) (p : Bytes), plan.length ≤ vs.length →
    passFields idx fs plan (.converted (p ++ bs.flatten) p.length) t =
      .ok ((planSees plan vs, .converted (p ++ bs.flatten) (p ++ (bs.take plan.length).flatten).length), t) := by
  induction he with
  | nil =>
    intro idx plan p hp
    cases plan with
    | nil => simp [passFields, planSees]
    | cons d plan => simp at hp
  | @cons f fs v vs b bs h1 h2 ih =>
    intro idx plan p hp
    cases hv with
    | cons hv1 hv2 =>
    cases plan with
    | nil => simp [passFields, planSees]
    | cons d plan =>
      have ih := ih hv2 (fun g hg => hf g (List.mem_cons_of_mem _ hg)) (idx + 1) plan (p ++ b) (by simpa using hp)
      have hff := hf f List.mem_cons_self
      cases d with
      | true =>
        unfold passFields
        have hcur := atCursor_run (m := f.plain.dec) p b bs.flatten (fun t => hff.round_trip v b hv1 h1 t)
        simp only [StructRepr.decodeField, List.flatten_cons, hcur, Rd.lift_ok, Rd.pure_bind]
        rw [← List.append_assoc, Rd.bind_of_ok ih]
        simp [planSees]
      | false =>
        unfold passFields
        have hcur := atCursor_run (m := f.plain.skip) p b bs.flatten (fun t => hff.skip_after v b hv1 h1 t)
        simp only [StructRepr.skipField, List.flatten_cons, hcur, Rd.lift_ok, Rd.pure_bind]
        rw [← List.append_assoc, Rd.bind_of_ok ih]
        simp [planSees]

end Revision
