import Verif.Spec.Session
import Verif.Proofs.Walk

/-! # Lemmas about sessions with walkers (C125) -/

namespace Revision

theorem Rd.at_ok {lost : Bytes → Bytes} {m : Rd β} {s r : Bytes} {v : β} (h : m s = .ok (v, r)) :
    m.at lost s = (.ok v, r) := by
  unfold Rd.at
  rw [h]

theorem Rd.at_res (lost : Bytes → Bytes) (m : Rd β) (s : Bytes) :
    m.at lost s = match m s with
      | .ok (v, r) => (.ok v, r)
      | .err e => (.err e, lost s)
      | .panic => (.panic, lost s) := rfl

/-- The walker with positions is the walker without, plus positions. -/
theorem Ty.walkAt_ok {cfg : Cfg} {lost : Bytes → Bytes} {t : Ty ι} {s r : Bytes} {w : Walker}
    (h : t.walk cfg s = .ok (w, r)) : t.walkAt cfg lost s = (.ok w, r) := by
  induction t with
  | wrap t ih => exact ih h
  | option t =>
    obtain ⟨o, r1, h1, h2⟩ := Rd.bind_ok.1 h
    obtain ⟨tag, r0, h3, h4⟩ := Rd.bind_ok.1 h1
    simp only [Ty.walkAt]
    rw [Rd.at_ok h3]
    by_cases ht : tag = 0 ∨ tag = 1
    · simp only [if_pos ht] at h4 ⊢
      simp at h4
      simp at h2
      rw [← h2.1, ← h2.2, ← h4.1, ← h4.2]
    · simp only [if_neg ht] at h4
      simp at h4
  | result t e =>
    obtain ⟨o, r1, h1, h2⟩ := Rd.bind_ok.1 h
    obtain ⟨tag, r0, h3, h4⟩ := Rd.bind_ok.1 h1
    simp only [Ty.walkAt]
    rw [Rd.at_ok h3]
    by_cases ht : tag = 0 ∨ tag = 1
    · simp only [if_pos ht] at h4 ⊢
      simp at h4
      simp at h2
      rw [← h2.1, ← h2.2, ← h4.1, ← h4.2]
    · simp only [if_neg ht] at h4
      simp at h4
  | vec t =>
    simp only [Ty.walkAt]
    cases hb : vecUsesBulkEncoding cfg t with
    | true => simp [Ty.walk, hb] at h
    | false =>
      simp only [Bool.false_eq_true, if_false]
      exact Rd.at_ok h
  | _ => exact Rd.at_ok h

/-- A walk that follows decoding, opened through the model with positions. -/
def FullWalk.ofWalk {E : Env ι} {cfg : Cfg} (lost : Bytes → Bytes) (t : Ty ι) (use : Walker → Rd β)
    (view : t.denote E.X → β)
    (h : ∀ s a r, (t.codec cfg E).dec s = .ok (a, r) → (t.walk cfg >>= use) s = .ok (view a, r)) :
    FullWalk (t.codec cfg E) β where
  opn := t.opening cfg lost use
  view := view
  follows s a r hd := by
    obtain ⟨w, r', h1, h2⟩ := Rd.bind_ok.1 (h s a r hd)
    refine ⟨use w, r', ?_, h2⟩
    simp only [Ty.opening]
    rw [Ty.walkAt_ok h1]

theorem SeqUse.step_state {c : Codec α} (lost : Bytes → Bytes) (u : SeqUse c β) (l : List α) (s r : Bytes)
    (h : Rd.readN l.length c.dec s = .ok (l, r)) :
    ∃ r', SeqState.call lost u.toCall ⟨s, l.length⟩ = ((u.step l).1, ⟨r', (u.step l).2.length⟩) ∧
      Rd.readN (u.step l).2.length c.dec r' = .ok ((u.step l).2, r) := by
  cases u with
  | count => exact ⟨s, rfl, h⟩
  | offer => exact ⟨s, by cases l <;> rfl, h⟩
  | item o =>
    cases l with
    | nil => exact ⟨s, rfl, h⟩
    | cons a l =>
      obtain ⟨a', l', r1, e, h1, h2⟩ := readN_succ_ok h
      cases e
      refine ⟨r1, ?_, h2⟩
      simp only [SeqUse.toCall, SeqState.call, List.length_cons, if_neg (Nat.succ_ne_zero _), SeqUse.step]
      rw [Rd.at_ok (o.follows _ _ _ h1)]
      rfl
  | walk w =>
    cases l with
    | nil => exact ⟨s, rfl, h⟩
    | cons a l =>
      obtain ⟨a', l', r1, e, h1, h2⟩ := readN_succ_ok h
      cases e
      obtain ⟨use, r', h3, h4⟩ := w.follows _ _ _ h1
      refine ⟨r1, ?_, h2⟩
      simp only [SeqUse.toCall, SeqState.call, List.length_cons, if_neg (Nat.succ_ne_zero _), SeqUse.step, h3]
      rw [Rd.at_ok h4]
      rfl

theorem SeqUse.run_state {c : Codec α} (lost : Bytes → Bytes) (us : List (SeqUse c β)) (l : List α) (s r : Bytes)
    (h : Rd.readN l.length c.dec s = .ok (l, r)) :
    ∃ r', SeqState.run lost (us.map SeqUse.toCall) ⟨s, l.length⟩ =
        ((SeqUse.run us l).1, ⟨r', (SeqUse.run us l).2.length⟩) ∧
      Rd.readN (SeqUse.run us l).2.length c.dec r' = .ok ((SeqUse.run us l).2, r) := by
  induction us generalizing l s with
  | nil => exact ⟨s, rfl, h⟩
  | cons u us ih =>
    obtain ⟨r1, h1, h2⟩ := u.step_state lost l s r h
    obtain ⟨r2, h3, h4⟩ := ih _ r1 h2
    refine ⟨r2, ?_, h4⟩
    simp only [List.map_cons, SeqState.run, h1, h3, SeqUse.run]

/-- The state of a map walker fits the view: the entries not handled are ahead on the reader, the first
perhaps without its key, and `r` follows. -/
def MapView.Stands (k : Codec κ) (v : Codec ν) (r : Bytes) (m : MapView κ ν) (σ : MapState) : Prop :=
  σ.remaining = m.rest.length ∧ σ.entry = m.entry ∧
    match m.entry, m.rest with
    | some .beforeValue, [] => False
    | some .beforeKey, [] => False
    | some .beforeValue, e :: l => ∃ r1, v.dec σ.reader = .ok (e.2, r1) ∧
        Rd.readN l.length (pairC k v).dec r1 = .ok (l, r)
    | _, l => Rd.readN l.length (pairC k v).dec σ.reader = .ok (l, r)

theorem MapState.took_succ (s r : Bytes) (n : Nat) (e : Option MapCursor) (a : Answer β) :
    (⟨s, n + 1, e⟩ : MapState).took r a = (a, ⟨r, n, none⟩) := rfl

theorem MapUse.step_state {k : Codec κ} {v : Codec ν} (lost : Bytes → Bytes) (u : MapUse k v β)
    (m m' : MapView κ ν) (σ : MapState) (r : Bytes) (a : Answer β) (h : m.Stands k v r σ)
    (hs : u.step m = some (a, m')) :
    ∃ σ', σ.call lost u.toCall = (a, σ') ∧ m'.Stands k v r σ' := by
  obtain ⟨l, en⟩ := m
  obtain ⟨s, n, en'⟩ := σ
  obtain ⟨hn, he, h⟩ := h
  simp only at hn he
  subst hn he
  cases en' with
  | none =>
    simp only at h
    cases u <;> simp only [MapUse.step, Option.some.injEq, Prod.mk.injEq, reduceCtorEq] at hs
    case next =>
      cases l with
      | nil =>
        simp at hs
        obtain ⟨rfl, rfl⟩ := hs
        exact ⟨_, rfl, rfl, rfl, h⟩
      | cons e l =>
        simp at hs
        obtain ⟨rfl, rfl⟩ := hs
        exact ⟨_, rfl, rfl, rfl, h⟩
    all_goals
      obtain ⟨rfl, rfl⟩ := hs
      exact ⟨_, rfl, rfl, rfl, h⟩
  | some cu =>
    cases cu with
    | beforeKey =>
      cases l with
      | nil => exact h.elim
      | cons e l =>
        simp only at h
        obtain ⟨e', l', r1, eq, h1, h2⟩ := readN_succ_ok h
        cases eq
        obtain ⟨r0, hk, hv⟩ := pairC_dec_ok h1
        cases u <;> simp only [MapUse.step, Option.some.injEq, Prod.mk.injEq] at hs <;> obtain ⟨rfl, rfl⟩ := hs
        case key o =>
          refine ⟨⟨r0, l.length + 1, some .beforeValue⟩, ?_, rfl, rfl, r1, hv, h2⟩
          simp only [MapUse.toCall, MapState.call, MapState.key]
          rw [Rd.at_ok (o.follows _ _ _ hk)]
          rfl
        case pair ko vo =>
          refine ⟨⟨r1, l.length, none⟩, ?_, rfl, rfl, h2⟩
          simp only [MapUse.toCall, MapState.call, MapState.pair, MapState.key]
          rw [Rd.at_ok (ko.follows _ _ _ hk)]
          simp only [MapState.value]
          rw [Rd.at_ok (vo.follows _ _ _ hv)]
          rfl
        all_goals exact ⟨_, rfl, rfl, rfl, h⟩
    | beforeValue =>
      cases l with
      | nil => exact h.elim
      | cons e l =>
        obtain ⟨r1, hv, h2⟩ := h
        simp only at hv
        cases u <;> simp only [MapUse.step, Option.some.injEq, Prod.mk.injEq, reduceCtorEq] at hs <;>
          obtain ⟨rfl, rfl⟩ := hs
        case key o => exact ⟨_, rfl, rfl, rfl, r1, hv, h2⟩
        case value o =>
          refine ⟨⟨r1, l.length, none⟩, ?_, rfl, rfl, h2⟩
          simp only [MapUse.toCall, MapState.call, MapState.value]
          rw [Rd.at_ok (o.follows _ _ _ hv)]
          rfl
        case walk w =>
          obtain ⟨use, r', h3, h4⟩ := w.follows _ _ _ hv
          refine ⟨⟨r1, l.length, none⟩, ?_, rfl, rfl, h2⟩
          simp only [MapUse.toCall, MapState.call, MapState.walk, h3]
          rw [Rd.at_ok h4]
          rfl

theorem MapUse.run_state {k : Codec κ} {v : Codec ν} (lost : Bytes → Bytes) (us : List (MapUse k v β))
    (m m' : MapView κ ν) (σ : MapState) (r : Bytes) (as : List (Answer β)) (h : m.Stands k v r σ)
    (hs : MapUse.run us m = some (as, m')) :
    ∃ σ', σ.run lost (us.map MapUse.toCall) = (as, σ') ∧ m'.Stands k v r σ' := by
  induction us generalizing m σ as with
  | nil => cases hs; exact ⟨σ, rfl, h⟩
  | cons u us ih =>
    simp only [MapUse.run] at hs
    generalize hu : u.step m = q at hs
    rcases q with _ | ⟨a, m1⟩
    · cases hs
    · simp only at hs
      generalize hr : MapUse.run us m1 = q at hs
      rcases q with _ | ⟨bs, m2⟩
      · cases hs
      · cases hs
        obtain ⟨σ1, h1, h2⟩ := u.step_state lost m m1 σ r a h hu
        obtain ⟨σ2, h3, h4⟩ := ih m1 σ1 bs h2 hr
        refine ⟨σ2, ?_, h4⟩
        simp only [List.map_cons, MapState.run, h1, h3]

end Revision
