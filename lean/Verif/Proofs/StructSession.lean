import Verif.Spec.StructSession
import Verif.Proofs.DeriveStream
import Verif.Proofs.Session

/-! # Lemmas about sessions with struct walkers (C126) -/

namespace Revision

variable {V : Type}

/-- The bytes of the fields ahead. -/
inductive FieldsAhead (c : FieldDecl V → Codec V) (fs : List (FieldDecl V)) (vs : List V) : List Nat → Bytes → Prop
  | nil : FieldsAhead c fs vs [] []
  | cons {i f v b left s} : fs[i]? = some f → vs[i]? = some v → (c f).valid v → (c f).enc v = .ok b →
      FieldsAhead c fs vs left s → FieldsAhead c fs vs (i :: left) (b ++ s)

theorem FieldsAhead.next {c : FieldDecl V → Codec V} {fs : List (FieldDecl V)} {vs : List V} {left left' : List Nat}
    {s : Bytes} {i : Nat} {f : FieldDecl V} {v : V} {a a' : StructAnswer V β} (h : FieldsAhead c fs vs left s)
    (hf : fs[i]? = some f) (hv : vs[i]? = some v) (ht : takeField a' i left = some (a, left')) :
    a = a' ∧ ∃ b s', s = b ++ s' ∧ (c f).valid v ∧ (c f).enc v = .ok b ∧ FieldsAhead c fs vs left' s' := by
  cases h with
  | nil => simp [takeField] at ht
  | @cons j f' v' b left s h1 h2 h3 h4 h5 =>
    simp only [takeField] at ht
    split at ht
    · rename_i hij
      subst hij
      rw [hf] at h1; cases h1
      rw [hv] at h2; cases h2
      cases ht
      exact ⟨rfl, b, s, rfl, h3, h4, h5⟩
    · cases ht

theorem FieldsAhead.eq_nil {c : FieldDecl V → Codec V} {fs : List (FieldDecl V)} {vs : List V} {s : Bytes}
    (h : FieldsAhead c fs vs [] s) : s = [] := by
  cases h; rfl

/-- What a streaming walker stands before, and the defaults of the fields that are not there. -/
theorem FieldStream.ahead {k : Nat} (fs : List (FieldDecl V)) (vs : List V) {fs' : List (FieldDecl V)} {vs' : List V}
    {s : Bytes} (h : FieldStream k fs' vs' s) : ∀ n, (∀ i, fs[n + i]? = fs'[i]?) → (∀ i, vs[n + i]? = vs'[i]?) →
    FieldsAhead (fun f => f.optimisedC) fs vs
        ((List.range' n fs'.length).filter fun i => match fs[i]? with
          | some f => f.existsAt k
          | none => false) s ∧
      (∀ i f v, n ≤ i → fs[i]? = some f → vs[i]? = some v → f.existsAt k = false → f.dflt k = .ok v) ∧
      fs'.length = vs'.length := by
  induction h with
  | nil =>
    intro n hf hv
    refine ⟨.nil, fun i f v hn h1 => ?_, rfl⟩
    have := hf (i - n)
    rw [Nat.add_sub_cancel' hn, h1] at this
    simp at this
  | @stored f fs' v vs' b s hc hvv hb hs ih =>
    intro n hf hv
    have hf0 : fs[n]? = some f := hf 0
    have hv0 : vs[n]? = some v := hv 0
    obtain ⟨h1, h2, h3⟩ := ih (n + 1)
      (fun i => by rw [Nat.add_assoc, Nat.add_comm 1, hf (i + 1)]; rfl)
      (fun i => by rw [Nat.add_assoc, Nat.add_comm 1, hv (i + 1)]; rfl)
    refine ⟨?_, fun i g x hn hg hx hne => ?_, by simp [h3]⟩
    · rw [List.length_cons, List.range'_succ, List.filter_cons_of_pos (by simp only [hf0, hc])]
      exact .cons hf0 hv0 hvv hb h1
    · rcases Nat.lt_or_eq_of_le hn with hlt | rfl
      · exact h2 i g x hlt hg hx hne
      · rw [hf0] at hg; cases hg
        rw [hc] at hne; cases hne
  | @absent f fs' v vs' s hc hd hs ih =>
    intro n hf hv
    have hf0 : fs[n]? = some f := hf 0
    have hv0 : vs[n]? = some v := hv 0
    obtain ⟨h1, h2, h3⟩ := ih (n + 1)
      (fun i => by rw [Nat.add_assoc, Nat.add_comm 1, hf (i + 1)]; rfl)
      (fun i => by rw [Nat.add_assoc, Nat.add_comm 1, hv (i + 1)]; rfl)
    refine ⟨?_, fun i g x hn hg hx hne => ?_, by simp [h3]⟩
    · rw [List.length_cons, List.range'_succ, List.filter_cons_of_neg (by simp only [hf0, hc]; exact Bool.false_ne_true)]
      exact h1
    · rcases Nat.lt_or_eq_of_le hn with hlt | rfl
      · exact h2 i g x hlt hg hx hne
      · rw [hf0] at hg; cases hg
        rw [hv0] at hx; cases hx
        exact hd

section
variable {fs : List (FieldDecl V)} {k tgt : Nat} {vs : List V} (hle : k ≤ tgt)
  (ht : ∀ f ∈ fs, f.existsAt tgt = true) (hf : ∀ f ∈ fs, f.existsAt k = true → f.optimisedC.Faithful)
  (hd : ∀ (i : Nat) (f : FieldDecl V) (v : V), fs[i]? = some f → vs[i]? = some v → f.existsAt k = false → f.dflt k = .ok v)
  (hl : fs.length = vs.length)
include hle ht hf hd hl

/-- One call on a walker of sequential data. -/
theorem StructUse.step_wire (lost : Bytes → Bytes) (t : Bytes) (u : StructUse V β) (hu : u.Follows fs)
    (left left' : List Nat) (s : Bytes) (a : StructAnswer V β)
    (hs : FieldsAhead (fun f => f.optimisedC) fs vs left s) (h : u.step fs k vs left = some (a, left')) :
    ∃ s', FieldsAhead (fun f => f.optimisedC) fs vs left' s' ∧
      StructState.call lost fs u.toCall ⟨.wire k, s ++ t⟩ = (a, ⟨.wire k, s' ++ t⟩) := by
  have hval : ∀ i f, fs[i]? = some f → ∃ v, vs[i]? = some v := fun i f hfi =>
    ⟨_, List.getElem?_eq_getElem (hl ▸ (List.getElem?_eq_some_iff.1 hfi).1)⟩
  have hpres : ∀ i f, fs[i]? = some f → StructRepr.present f k = f.existsAt k := fun i f hfi =>
    present_eq hle (ht f (List.mem_of_getElem? hfi))
  cases u with
  | decode i =>
    simp only [StructUse.step, StructUse.toCall, StructState.call] at h ⊢
    cases hfi : fs[i]? with
    | none => rw [hfi] at h; cases h; exact ⟨s, hs, rfl⟩
    | some f =>
      obtain ⟨v, hvi⟩ := hval i f hfi
      rw [hfi, hvi] at h
      simp only [StructState.decode, hpres i f hfi] at h ⊢
      split at h
      · rename_i ha
        obtain ⟨rfl, b, s', rfl, h1, h2, h3⟩ := hs.next hfi hvi h
        have := (hf f (List.mem_of_getElem? hfi) ha).round_trip v b h1 h2 (s' ++ t)
        rw [List.append_assoc, if_pos ha, Rd.at_ok this]
        exact ⟨s', h3, rfl⟩
      · rename_i ha
        cases h
        rw [if_neg ha, hd i f v hfi hvi (by simpa using ha)]
        exact ⟨s, hs, rfl⟩
  | skip i =>
    simp only [StructUse.step, StructUse.toCall, StructState.call] at h ⊢
    cases hfi : fs[i]? with
    | none => rw [hfi] at h; cases h; exact ⟨s, hs, rfl⟩
    | some f =>
      obtain ⟨v, hvi⟩ := hval i f hfi
      rw [hfi] at h
      simp only [StructState.skip, hpres i f hfi] at h ⊢
      split at h
      · rename_i ha
        obtain ⟨rfl, b, s', rfl, h1, h2, h3⟩ := hs.next hfi hvi h
        have := (hf f (List.mem_of_getElem? hfi) ha).skip_after v b h1 h2 (s' ++ t)
        rw [List.append_assoc, if_pos ha, Rd.at_ok this]
        exact ⟨s', h3, rfl⟩
      · rename_i ha
        cases h
        rw [if_neg ha]
        exact ⟨s, hs, rfl⟩
  | view i =>
    simp only [StructUse.step, StructUse.toCall, StructState.call] at h ⊢
    cases hfi : fs[i]? with
    | none => rw [hfi] at h; cases h; exact ⟨s, hs, rfl⟩
    | some f =>
      obtain ⟨v, hvi⟩ := hval i f hfi
      rw [hfi, hvi] at h
      simp only at h ⊢
      split at h
      · rename_i hx
        rw [if_pos hx]
        split at h
        · rename_i x hex
          split at h
          · rename_i ha
            obtain ⟨rfl, b, s', rfl, h1, h2, h3⟩ := hs.next hfi hvi h
            have hff := hf f (List.mem_of_getElem? hfi) ha
            simp only [FieldDecl.optimisedC, hx, if_true] at hff h1 h2
            rw [hex] at h2; cases h2
            have := consumed_run (hff.skip_after v x h1 hex (s' ++ t))
            simp only [StructState.view]
            rw [List.append_assoc, Rd.at_ok this]
            exact ⟨s', h3, rfl⟩
          · cases h
        · cases h
      · rename_i hx
        cases h
        rw [if_neg hx]
        exact ⟨s, hs, rfl⟩
  | walk i opn see =>
    simp only [StructUse.step, StructUse.toCall, StructState.call] at h ⊢
    cases hfi : fs[i]? with
    | none => rw [hfi] at h; cases h; exact ⟨s, hs, rfl⟩
    | some f =>
      obtain ⟨v, hvi⟩ := hval i f hfi
      rw [hfi, hvi] at h
      simp only [StructState.walk, hpres i f hfi] at h ⊢
      split at h
      · rename_i hx
        cases h
        rw [if_pos hx]
        exact ⟨s, hs, rfl⟩
      · rename_i hx
        rw [if_neg hx]
        split at h
        · rename_i ha
          obtain ⟨rfl, b, s', rfl, h1, h2, h3⟩ := hs.next hfi hvi h
          have hff := hf f (List.mem_of_getElem? hfi) ha
          simp only [FieldDecl.optimisedC, if_neg hx] at hff h1 h2
          obtain ⟨use, r', e1, e2⟩ := hu f hfi _ _ _ (hff.round_trip v b h1 h2 (s' ++ t))
          rw [List.append_assoc, if_pos ha, e1]
          simp only [StructState.settle]
          rw [Rd.at_ok e2]
          exact ⟨s', h3, rfl⟩
        · rename_i ha
          cases h
          rw [if_neg ha]
          exact ⟨s, hs, rfl⟩
  | refused i e =>
    simp only [StructUse.step, StructUse.toCall, StructState.call] at h ⊢
    cases hfi : fs[i]? with
    | none => rw [hfi] at h; cases h; exact ⟨s, hs, rfl⟩
    | some f =>
      rw [hfi] at h
      simp only [StructState.walk, hpres i f hfi] at h ⊢
      split at h
      · rename_i hx
        cases h
        rw [if_pos hx]
        exact ⟨s, hs, rfl⟩
      · rename_i hx
        rw [if_neg hx]
        split at h
        · rename_i ha
          cases h
          rw [if_pos ha]
          exact ⟨s, hs, rfl⟩
        · rename_i ha
          cases h
          rw [if_neg ha]
          exact ⟨s, hs, rfl⟩

/-- A session with a walker of sequential data. -/
theorem StructUse.run_wire (lost : Bytes → Bytes) (t : Bytes) : ∀ (us : List (StructUse V β)),
    (∀ u ∈ us, u.Follows fs) → ∀ (left left' : List Nat) (s : Bytes) (as : List (StructAnswer V β)),
    FieldsAhead (fun f => f.optimisedC) fs vs left s → StructUse.run fs k vs us left = some (as, left') →
    ∃ s', FieldsAhead (fun f => f.optimisedC) fs vs left' s' ∧
      StructState.run lost fs (us.map StructUse.toCall) ⟨.wire k, s ++ t⟩ = (as, ⟨.wire k, s' ++ t⟩)
  | [], _, left, left', s, as, hs, h => by
    cases h
    exact ⟨s, hs, rfl⟩
  | u :: us, hu, left, left', s, as, hs, h => by
    simp only [StructUse.run] at h
    cases h1 : u.step fs k vs left with
    | none => rw [h1] at h; cases h
    | some q =>
      obtain ⟨a, l1⟩ := q
      rw [h1] at h
      simp only at h
      cases h2 : StructUse.run fs k vs us l1 with
      | none => rw [h2] at h; cases h
      | some q =>
        obtain ⟨as', l2⟩ := q
        rw [h2] at h
        cases h
        obtain ⟨s1, hs1, e1⟩ := StructUse.step_wire hle ht hf hd hl lost t u (hu u List.mem_cons_self) left l1 s a hs h1
        obtain ⟨s2, hs2, e2⟩ := StructUse.run_wire lost t us (fun u hm => hu u (List.mem_cons_of_mem _ hm)) l1 left' s1
          as' hs1 h2
        refine ⟨s2, hs2, ?_⟩
        simp only [List.map_cons, StructState.run]
        rw [e1]
        simp only
        rw [e2]

end

/-- The bytes of all fields, encoded one after another. -/
theorem Encodes.ahead {c : FieldDecl V → Codec V} (fs : List (FieldDecl V)) (vs : List V) {k : Nat}
    {fs' : List (FieldDecl V)} {vs' : List V} {bs : List Bytes} (he : Encodes c fs' vs' bs) (hv : AllValid c fs' vs') :
    ∀ n, (∀ i, fs[n + i]? = fs'[i]?) → (∀ i, vs[n + i]? = vs'[i]?) → (∀ f ∈ fs', f.existsAt k = true) →
    FieldsAhead c fs vs
        ((List.range' n fs'.length).filter fun i => match fs[i]? with
          | some f => f.existsAt k
          | none => false) bs.flatten := by
  induction he with
  | nil => intro n _ _ _; exact .nil
  | @cons f fs' v vs' b bs h1 h2 ih =>
    intro n hf hv' ha
    cases hv with
    | cons hv1 hv2 =>
    have hf0 : fs[n]? = some f := hf 0
    have hv0 : vs[n]? = some v := hv' 0
    have ih := ih hv2 (n + 1)
      (fun i => by rw [Nat.add_assoc, Nat.add_comm 1, hf (i + 1)]; rfl)
      (fun i => by rw [Nat.add_assoc, Nat.add_comm 1, hv' (i + 1)]; rfl)
      (fun g hg => ha g (List.mem_cons_of_mem _ hg))
    rw [List.length_cons, List.range'_succ, List.filter_cons_of_pos (by simp only [hf0]; exact ha f List.mem_cons_self)]
    exact .cons hf0 hv0 hv1 h1 ih

section
variable {fs : List (FieldDecl V)} {k : Nat} {vs : List V} (ha : ∀ f ∈ fs, f.existsAt k = true)
  (hf : ∀ f ∈ fs, f.plain.Faithful) (hl : fs.length = vs.length)
include ha hf hl

/-- One call on a walker of converted data. -/
theorem StructUse.step_converted (lost : Bytes → Bytes) (t all : Bytes) (u : StructUse V β) (hu : u.NoWalk)
    (left left' : List Nat) (p s : Bytes) (a : StructAnswer V β) (hall : all = p ++ s)
    (hs : FieldsAhead (fun f => f.plain) fs vs left s) (h : u.step fs k vs left = some (a, left')) :
    ∃ p' s', all = p' ++ s' ∧ FieldsAhead (fun f => f.plain) fs vs left' s' ∧
      StructState.call lost fs u.toCall ⟨.converted all p.length, t⟩ = (a, ⟨.converted all p'.length, t⟩) := by
  have hval : ∀ i f, fs[i]? = some f → ∃ v, vs[i]? = some v := fun i f hfi =>
    ⟨_, List.getElem?_eq_getElem (hl ▸ (List.getElem?_eq_some_iff.1 hfi).1)⟩
  cases u with
  | decode i =>
    simp only [StructUse.step, StructUse.toCall, StructState.call] at h ⊢
    cases hfi : fs[i]? with
    | none => rw [hfi] at h; cases h; exact ⟨p, s, hall, hs, rfl⟩
    | some f =>
      obtain ⟨v, hvi⟩ := hval i f hfi
      have hm := List.mem_of_getElem? hfi
      rw [hfi, hvi] at h
      simp only [ha f hm, if_true] at h
      obtain ⟨rfl, b, s', rfl, h1, h2, h3⟩ := hs.next hfi hvi h
      have hcur := atCursor_run (m := f.plain.dec) p b s' (fun t => (hf f hm).round_trip v b h1 h2 t)
      rw [← hall] at hcur
      refine ⟨p ++ b, s', by rw [hall, List.append_assoc], h3, ?_⟩
      simp only [StructState.decode, hcur, StructState.settle]
  | skip i =>
    simp only [StructUse.step, StructUse.toCall, StructState.call] at h ⊢
    cases hfi : fs[i]? with
    | none => rw [hfi] at h; cases h; exact ⟨p, s, hall, hs, rfl⟩
    | some f =>
      obtain ⟨v, hvi⟩ := hval i f hfi
      have hm := List.mem_of_getElem? hfi
      rw [hfi] at h
      simp only [ha f hm, if_true] at h
      obtain ⟨rfl, b, s', rfl, h1, h2, h3⟩ := hs.next hfi hvi h
      have hcur := atCursor_run (m := f.plain.skip) p b s' (fun t => (hf f hm).skip_after v b h1 h2 t)
      rw [← hall] at hcur
      refine ⟨p ++ b, s', by rw [hall, List.append_assoc], h3, ?_⟩
      simp only [StructState.skip, hcur, StructState.settle]
  | view i =>
    simp only [StructUse.step, StructUse.toCall, StructState.call] at h ⊢
    cases hfi : fs[i]? with
    | none => rw [hfi] at h; cases h; exact ⟨p, s, hall, hs, rfl⟩
    | some f =>
      obtain ⟨v, hvi⟩ := hval i f hfi
      have hm := List.mem_of_getElem? hfi
      rw [hfi, hvi] at h
      simp only [ha f hm, if_true] at h ⊢
      split at h
      · rename_i hx
        rw [if_pos hx]
        split at h
        · rename_i x hex
          obtain ⟨rfl, b, s', rfl, h1, h2, h3⟩ := hs.next hfi hvi h
          have hcur := atCursor_run (m := f.plain.dec) p b s' (fun t => (hf f hm).round_trip v b h1 h2 t)
          rw [← hall] at hcur
          refine ⟨p ++ b, s', by rw [hall, List.append_assoc], h3, ?_⟩
          simp only [StructState.view, hcur, StructState.settle, hex]
        · cases h
      · rename_i hx
        cases h
        rw [if_neg hx]
        exact ⟨p, s, hall, hs, rfl⟩
  | walk i opn see => exact hu.elim
  | refused i e => exact hu.elim

/-- A session with a walker of converted data. -/
theorem StructUse.run_converted (lost : Bytes → Bytes) (t all : Bytes) : ∀ (us : List (StructUse V β)),
    (∀ u ∈ us, u.NoWalk) → ∀ (left left' : List Nat) (p s : Bytes) (as : List (StructAnswer V β)), all = p ++ s →
    FieldsAhead (fun f => f.plain) fs vs left s → StructUse.run fs k vs us left = some (as, left') →
    ∃ p' s', all = p' ++ s' ∧ FieldsAhead (fun f => f.plain) fs vs left' s' ∧
      StructState.run lost fs (us.map StructUse.toCall) ⟨.converted all p.length, t⟩ =
        (as, ⟨.converted all p'.length, t⟩)
  | [], _, left, left', p, s, as, hall, hs, h => by
    cases h
    exact ⟨p, s, hall, hs, rfl⟩
  | u :: us, hu, left, left', p, s, as, hall, hs, h => by
    simp only [StructUse.run] at h
    cases h1 : u.step fs k vs left with
    | none => rw [h1] at h; cases h
    | some q =>
      obtain ⟨a, l1⟩ := q
      rw [h1] at h
      simp only at h
      cases h2 : StructUse.run fs k vs us l1 with
      | none => rw [h2] at h; cases h
      | some q =>
        obtain ⟨as', l2⟩ := q
        rw [h2] at h
        cases h
        obtain ⟨p1, s1, hall1, hs1, e1⟩ := StructUse.step_converted ha hf hl lost t all u (hu u List.mem_cons_self)
          left l1 p s a hall hs h1
        obtain ⟨p2, s2, hall2, hs2, e2⟩ := StructUse.run_converted lost t all us
          (fun u hm => hu u (List.mem_cons_of_mem _ hm)) l1 left' p1 s1 as' hall1 hs1 h2
        refine ⟨p2, s2, hall2, hs2, ?_⟩
        simp only [List.map_cons, StructState.run]
        rw [e1]
        simp only
        rw [e2]

end

end Revision
