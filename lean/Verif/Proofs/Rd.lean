import Verif.Spec.Laws

/-! Helper lemmas: readers and their laws compose. -/

namespace Revision
namespace Rd

@[ext] theorem ext' {m n : Rd α} (h : ∀ s, m s = n s) : m = n := by
  cases m; cases n; congr; funext s; exact h s

theorem bind_run (m : Rd α) (f : α → Rd β) (s : Bytes) :
    (m >>= f) s = match m s with
      | .ok (a, r) => f a r
      | .err e => .err e
      | .panic => .panic := rfl

@[simp] theorem pure_run (a : α) (s : Bytes) : (pure a : Rd α) s = .ok (a, s) := rfl

theorem bind_ok {m : Rd α} {f : α → Rd β} {s r : Bytes} {b : β} :
    (m >>= f) s = .ok (b, r) ↔ ∃ a r', m s = .ok (a, r') ∧ f a r' = .ok (b, r) := by
  rw [bind_run]
  cases h : m s with
  | ok p =>
    obtain ⟨a, r'⟩ := p
    constructor
    · intro h2; exact ⟨a, r', rfl, h2⟩
    · rintro ⟨a2, r2, h1, h2⟩
      simp at h1
      obtain ⟨rfl, rfl⟩ := h1
      exact h2
  | err e => simp
  | panic => simp

theorem bind_of_ok {m : Rd α} {f : α → Rd β} {s r : Bytes} {a : α} (h : m s = .ok (a, r)) :
    (m >>= f) s = f a r := by rw [bind_run, h]

theorem bind_of_err {m : Rd α} {f : α → Rd β} {s : Bytes} {e} (h : m s = .err e) :
    (m >>= f) s = .err e := by rw [bind_run, h]

theorem bind_of_panic {m : Rd α} {f : α → Rd β} {s : Bytes} (h : m s = .panic) :
    (m >>= f) s = .panic := by rw [bind_run, h]

@[simp] theorem fail_run (e : Err) (s : Bytes) : (fail e : Rd α) s = .err e := rfl
@[simp] theorem panic_run (s : Bytes) : (panic : Rd α) s = .panic := rfl
@[simp] theorem lift_ok (a : α) : (lift (.ok a) : Rd α) = pure a := rfl
@[simp] theorem lift_err (e : Err) : (lift (.err e) : Rd α) = fail e := rfl
@[simp] theorem lift_panic : (lift .panic : Rd α) = panic := rfl

@[simp] theorem pure_bind (a : α) (f : α → Rd β) : ((pure a : Rd α) >>= f) = f a := rfl

@[simp] theorem bind_assoc (m : Rd α) (f : α → Rd β) (g : β → Rd γ) :
    ((m >>= f) >>= g) = (m >>= fun a => f a >>= g) := by
  ext s : 1
  simp only [bind_run]
  cases h : m s with
  | ok p => obtain ⟨a, r'⟩ := p; rfl
  | err e => simp
  | panic => simp

theorem map_eq (f : α → β) (m : Rd α) : (f <$> m) = (m >>= fun a => pure (f a)) := rfl

@[simp] theorem alloc_true : alloc true = pure () := rfl

theorem readExact_append (u t : Bytes) (n : Nat) (h : u.length = n) :
    readExact n (u ++ t) = .ok (u, t) := by
  subst h; simp [readExact]

@[simp] theorem readByte_cons (b : UInt8) (t : Bytes) : readByte (b :: t) = .ok (b, t) := rfl

theorem advance_append (u t : Bytes) (n : Nat) (h : u.length = n) :
    advance n (u ++ t) = .ok ((), t) := by
  subst h; simp [advance]

theorem advance_eq (n : Nat) : advance n = (readExact n).discard := by
  ext s : 1
  simp only [advance, discard, bind_run, readExact]
  split <;> simp

/-! ### Framed -/

theorem Framed.pure (a : α) : Framed (pure a : Rd α) := by
  intro s b r h
  simp at h
  obtain ⟨rfl, rfl⟩ := h
  exact ⟨[], by simp, by simp, by intro p q h; simp at h; simp [h]⟩

theorem Framed.fail (e : Err) : Framed (fail e : Rd α) := by
  intro s b r h; simp at h

theorem Framed.panic : Framed (panic : Rd α) := by
  intro s b r h; simp at h

theorem Framed.lift (x : Res α) : Framed (Rd.lift x) := by
  cases x with
  | ok a => exact Framed.pure a
  | err e => exact Framed.fail e
  | panic => exact Framed.panic

theorem Framed.alloc (ok : Bool) : Framed (Rd.alloc ok) := by
  cases ok
  · exact Framed.panic
  · exact Framed.pure ()

theorem Framed.bind {m : Rd α} {f : α → Rd β} (hm : Framed m) (hf : ∀ a, Framed (f a)) :
    Framed (m >>= f) := by
  intro s b r h
  obtain ⟨a, r', h1, h2⟩ := bind_ok.1 h
  obtain ⟨u, rfl, hu, hpre⟩ := hm _ _ _ h1
  obtain ⟨v, rfl, hv, hpre'⟩ := hf a _ _ _ h2
  refine ⟨u ++ v, by simp, ?_, ?_⟩
  · intro t
    rw [List.append_assoc, bind_of_ok (hu _), hv]
  · intro p q hpq hq
    rcases List.append_eq_append_iff.1 hpq with ⟨w, hw1, hw2⟩ | ⟨w, hw1, hw2⟩
    · -- p = u ++ w
      subst hw1
      obtain ⟨e, he⟩ := hpre' w q hw2 hq
      exact ⟨e, by rw [bind_of_ok (hu _), he]⟩
    · -- u = p ++ w
      by_cases hw : w = []
      · subst hw
        simp at hw1 hw2
        subst hw1
        obtain ⟨e, he⟩ := hpre' [] v (by simp) (by rw [← hw2]; exact hq)
        refine ⟨e, ?_⟩
        have := hu []
        rw [List.append_nil] at this
        rw [bind_of_ok this, he]
      · obtain ⟨e, he⟩ := hpre p w hw1 hw
        exact ⟨e, bind_of_err he⟩

theorem Framed.map {m : Rd α} {f : α → β} (hm : Framed m) : Framed (f <$> m) :=
  Framed.bind hm fun _ => Framed.pure _

theorem Framed.discard {m : Rd α} (hm : Framed m) : Framed m.discard :=
  Framed.bind hm fun _ => Framed.pure _

theorem Framed.readExact (n : Nat) : Framed (readExact n) := by
  intro s a r h
  simp only [Rd.readExact] at h
  split at h
  · rename_i hn
    simp at h
    obtain ⟨rfl, rfl⟩ := h
    refine ⟨s.take n, by simp, ?_, ?_⟩
    · intro t
      exact readExact_append _ _ _ (by simp [hn])
    · intro p q hpq hq
      refine ⟨.io, ?_⟩
      have hl : (s.take n).length = n := by simp [hn]
      rw [hpq] at hl
      simp at hl
      have : 0 < q.length := List.length_pos_iff.2 hq
      simp only [Rd.readExact]
      rw [if_neg (by omega)]
  · simp at h

theorem Framed.readByte : Framed readByte := by
  intro s a r h
  cases s with
  | nil => simp [Rd.readByte] at h
  | cons b t =>
    simp at h
    obtain ⟨rfl, rfl⟩ := h
    refine ⟨[b], by simp, by simp, ?_⟩
    intro p q hpq hq
    cases p with
    | nil => exact ⟨.io, rfl⟩
    | cons c p => simp at hpq; exact absurd hpq.2.2 hq

theorem Framed.advance (n : Nat) : Framed (advance n) := by
  rw [advance_eq]; exact (Framed.readExact n).discard

theorem Framed.mapErr {m : Rd α} (f : Err → Err) (hm : Framed m) : Framed (m.mapErr f) := by
  intro s a r h
  have key : ∀ s a r, m.mapErr f s = .ok (a, r) ↔ m s = .ok (a, r) := by
    intro s a r
    simp only [Rd.mapErr]
    cases m s <;> simp [Res.mapErr]
  obtain ⟨u, h1, h2, h3⟩ := hm _ _ _ ((key _ _ _).1 h)
  refine ⟨u, h1, fun t => (key _ _ _).2 (h2 t), ?_⟩
  intro p q hpq hq
  obtain ⟨e, he⟩ := h3 p q hpq hq
  exact ⟨f e, by simp [Rd.mapErr, he, Res.mapErr]⟩

theorem mapErr_ok {m : Rd α} {f : Err → Err} {s r : Bytes} {a : α} :
    m.mapErr f s = .ok (a, r) ↔ m s = .ok (a, r) := by
  simp only [Rd.mapErr]
  cases m s <;> simp [Res.mapErr]

theorem Framed.ite {c : Prop} [Decidable c] {m n : Rd α} (hm : Framed m) (hn : Framed n) :
    Framed (if c then m else n) := by
  split <;> assumption

theorem Framed.readN {m : Rd α} (hm : Framed m) (n : Nat) : Framed (readN n m) := by
  induction n with
  | zero => exact Framed.pure _
  | succ n ih => exact Framed.bind hm fun _ => Framed.bind ih fun _ => Framed.pure _

theorem Framed.repeatN {m : Rd Unit} (hm : Framed m) (n : Nat) : Framed (repeatN n m) := by
  induction n with
  | zero => exact Framed.pure _
  | succ n ih => exact Framed.bind hm fun _ => ih

/-! ### Agree -/

theorem Agree.refl (m : Rd α) : Agree m m := fun _ a _ h => ⟨a, h⟩

theorem Agree.discard {m : Rd α} {k : Rd β} (h : Agree m k) : Agree m k.discard := by
  intro s a r hs
  obtain ⟨x, hx⟩ := h s a r hs
  exact ⟨(), bind_of_ok hx⟩

theorem Agree.discard_left {m : Rd α} {k : Rd β} (h : Agree m k) : Agree m.discard k := by
  intro s a r hs
  obtain ⟨a', r', h1, h2⟩ := bind_ok.1 hs
  simp at h2
  obtain ⟨-, rfl⟩ := h2
  exact h s a' _ h1

/-- A skipper that runs two skippers in turn. -/
theorem Agree.bind {m : Rd α} {f : α → Rd β} {k : Rd γ} {g : γ → Rd δ}
    (h : Agree m k) (hf : ∀ a x, Agree (f a) (g x)) : Agree (m >>= f) (k >>= g) := by
  intro s b r hs
  obtain ⟨a, r', h1, h2⟩ := bind_ok.1 hs
  obtain ⟨x, hx⟩ := h s a r' h1
  obtain ⟨y, hy⟩ := hf a x r' b r h2
  exact ⟨y, by rw [bind_of_ok hx, hy]⟩

/-- A skipper that shares its first step with the decoder. -/
theorem Agree.bind_same {m : Rd α} {f : α → Rd β} {g : α → Rd δ}
    (hf : ∀ a, Agree (f a) (g a)) : Agree (m >>= f) (m >>= g) := by
  intro s b r hs
  obtain ⟨a, r', h1, h2⟩ := bind_ok.1 hs
  obtain ⟨y, hy⟩ := hf a r' b r h2
  exact ⟨y, by rw [bind_of_ok h1, hy]⟩

/-- The decoder does something extra that consumes nothing. -/
theorem Agree.alloc_left {ok : Bool} {f : Unit → Rd β} {k : Rd γ}
    (h : Agree (f ()) k) : Agree (Rd.alloc ok >>= f) k := by
  intro s b r hs
  cases ok with
  | false => simp [Rd.alloc, bind_run] at hs
  | true => exact h s b r hs

theorem Agree.bind_pure_left {m : Rd α} {f : α → β} {k : Rd γ} (h : Agree m k) :
    Agree (m >>= fun a => pure (f a)) k := by
  intro s b r hs
  obtain ⟨a, r', h1, h2⟩ := bind_ok.1 hs
  simp at h2
  obtain ⟨-, rfl⟩ := h2
  exact h s a r' h1

theorem Agree.bind_lift_left {m : Rd α} {f : α → Res β} {k : Rd γ} (h : Agree m k) :
    Agree (m >>= fun a => Rd.lift (f a)) k := by
  intro s b r hs
  obtain ⟨a, r', h1, h2⟩ := bind_ok.1 hs
  cases hfa : f a <;> simp [hfa] at h2
  obtain ⟨-, rfl⟩ := h2
  exact h s a _ h1

theorem Agree.bind_pure_right {m : Rd α} {f : γ → δ} {k : Rd γ} (h : Agree m k) :
    Agree m (k >>= fun a => pure (f a)) := by
  intro s b r hs
  obtain ⟨x, hx⟩ := h s b r hs
  exact ⟨f x, by rw [bind_of_ok hx]; rfl⟩

theorem Agree.mapErr_left {m : Rd α} {f} {k : Rd γ} (h : Agree m k) : Agree (m.mapErr f) k := by
  intro s b r hs
  exact h s b r (mapErr_ok.1 hs)

theorem Agree.mapErr_right {m : Rd α} {f} {k : Rd γ} (h : Agree m k) : Agree m (k.mapErr f) := by
  intro s b r hs
  obtain ⟨x, hx⟩ := h s b r hs
  exact ⟨x, mapErr_ok.2 hx⟩

theorem Agree.fail_left {e} {k : Rd γ} : Agree (fail e : Rd α) k := by
  intro s b r hs; simp at hs

theorem Agree.pure (a : α) (b : β) : Agree (pure a) (pure b) := by
  intro s c r hs; simp at hs; exact ⟨b, by simp [hs]⟩

theorem Agree.readExact_advance (n : Nat) : Agree (readExact n) (advance n) := by
  rw [advance_eq]; exact (Agree.refl _).discard

theorem Agree.readN {m : Rd α} {k : Rd Unit} (h : Agree m k) (n : Nat) :
    Agree (readN n m) (repeatN n k) := by
  induction n with
  | zero => exact Agree.pure _ _
  | succ n ih => exact Agree.bind h fun _ _ => Agree.bind_pure_left ih

theorem Agree.ite {c : Prop} [Decidable c] {m n : Rd α} {k l : Rd β}
    (h1 : c → Agree m k) (h2 : ¬ c → Agree n l) :
    Agree (if c then m else n) (if c then k else l) := by
  split
  · exact h1 ‹_›
  · exact h2 ‹_›

theorem Agree.ite_left {c : Prop} [Decidable c] {m n : Rd α} {k : Rd β}
    (h1 : c → Agree m k) (h2 : ¬ c → Agree n k) :
    Agree (if c then m else n) k := by
  split
  · exact h1 ‹_›
  · exact h2 ‹_›

/-! ### NoPanic -/

theorem NoPanic.pure (a : α) : NoPanic (pure a : Rd α) := by intro s; simp
theorem NoPanic.fail (e : Err) : NoPanic (fail e : Rd α) := by intro s; simp

theorem NoPanic.bind {m : Rd α} {f : α → Rd β} (hm : NoPanic m) (hf : ∀ a, NoPanic (f a)) :
    NoPanic (m >>= f) := by
  intro s
  rw [bind_run]
  cases h : m s with
  | ok p => obtain ⟨a, r'⟩ := p; exact hf a r'
  | err e => simp
  | panic => exact absurd h (hm s)

theorem NoPanic.bind' {m : Rd α} {f : α → Rd β} {P : α → Prop} (hm : NoPanic m)
    (hy : Yields m P) (hf : ∀ a, P a → NoPanic (f a)) :
    NoPanic (m >>= f) := by
  intro s
  rw [bind_run]
  cases h : m s with
  | ok p => obtain ⟨a, r'⟩ := p; exact hf a (hy _ _ _ h) r'
  | err e => simp
  | panic => exact absurd h (hm s)

theorem NoPanic.map {m : Rd α} {f : α → β} (hm : NoPanic m) : NoPanic (f <$> m) :=
  NoPanic.bind hm fun _ => NoPanic.pure _

theorem NoPanic.discard {m : Rd α} (hm : NoPanic m) : NoPanic m.discard :=
  NoPanic.bind hm fun _ => NoPanic.pure _

theorem NoPanic.readExact (n : Nat) : NoPanic (readExact n) := by
  intro s; simp only [Rd.readExact]; split <;> simp

theorem NoPanic.readByte : NoPanic readByte := by
  intro s; cases s <;> simp [Rd.readByte]

theorem NoPanic.advance (n : Nat) : NoPanic (advance n) := by
  intro s; simp only [Rd.advance]; split <;> simp

theorem NoPanic.mapErr {m : Rd α} (f : Err → Err) (hm : NoPanic m) : NoPanic (m.mapErr f) := by
  intro s
  have := hm s
  simp only [Rd.mapErr]
  cases h : m s <;> simp_all [Res.mapErr]

theorem NoPanic.lift {x : Res α} (h : x ≠ .panic) : NoPanic (Rd.lift x) := by
  cases x <;> simp_all
  · exact NoPanic.pure _
  · exact NoPanic.fail _

theorem NoPanic.ite {c : Prop} [Decidable c] {m n : Rd α} (hm : NoPanic m) (hn : NoPanic n) :
    NoPanic (if c then m else n) := by
  split <;> assumption

theorem NoPanic.readN {m : Rd α} (hm : NoPanic m) (n : Nat) : NoPanic (readN n m) := by
  induction n with
  | zero => exact NoPanic.pure _
  | succ n ih => exact NoPanic.bind hm fun _ => NoPanic.bind ih fun _ => NoPanic.pure _

theorem NoPanic.repeatN {m : Rd Unit} (hm : NoPanic m) (n : Nat) : NoPanic (repeatN n m) := by
  induction n with
  | zero => exact NoPanic.pure _
  | succ n ih => exact NoPanic.bind hm fun _ => ih

/-! ### Yields -/

theorem Yields.pure {P : α → Prop} {a : α} (h : P a) : Yields (pure a : Rd α) P := by
  intro s b r hs; simp at hs; rw [← hs.1]; exact h

theorem Yields.fail {P : α → Prop} (e : Err) : Yields (fail e : Rd α) P := by
  intro s b r hs; simp at hs

theorem Yields.bind {m : Rd α} {f : α → Rd β} {P : α → Prop} {Q : β → Prop}
    (hm : Yields m P) (hf : ∀ a, P a → Yields (f a) Q) : Yields (m >>= f) Q := by
  intro s b r hs
  obtain ⟨a, r', h1, h2⟩ := bind_ok.1 hs
  exact hf a (hm _ _ _ h1) _ _ _ h2

theorem Yields.trivial {m : Rd α} : Yields m (fun _ => True) := fun _ _ _ _ => True.intro

theorem Yields.bind_any {m : Rd α} {f : α → Rd β} {Q : β → Prop}
    (hf : ∀ a, Yields (f a) Q) : Yields (m >>= f) Q :=
  Yields.bind (P := fun _ => True) Yields.trivial fun a _ => hf a

theorem Yields.mono {m : Rd α} {P Q : α → Prop} (hm : Yields m P) (h : ∀ a, P a → Q a) :
    Yields m Q := fun s a r hs => h a (hm s a r hs)

theorem Yields.alloc_bind {ok : Bool} {f : Unit → Rd β} {Q : β → Prop}
    (h : ok = true → Yields (f ()) Q) : Yields (Rd.alloc ok >>= f) Q := by
  intro s b r hs
  cases ok with
  | false => simp [Rd.alloc, bind_run] at hs
  | true => exact h rfl s b r hs

theorem Yields.readN {m : Rd α} {P : α → Prop} (hm : Yields m P) (n : Nat) :
    Yields (readN n m) (fun l => l.length = n ∧ ∀ a ∈ l, P a) := by
  induction n with
  | zero => exact Yields.pure (by simp)
  | succ n ih =>
    refine Yields.bind hm fun a ha => Yields.bind ih fun l hl => Yields.pure ?_
    simp [hl.1, ha]
    exact hl.2

theorem Yields.readExact (n : Nat) : Yields (readExact n) (fun b => b.length = n) := by
  intro s a r h
  simp only [Rd.readExact] at h
  split at h
  · simp at h; rw [← h.1]; simp; omega
  · simp at h

theorem Yields.mapErr {m : Rd α} {P : α → Prop} {f} (hm : Yields m P) : Yields (m.mapErr f) P :=
  fun s a r hs => hm s a r (mapErr_ok.1 hs)

theorem Yields.ite {c : Prop} [Decidable c] {m n : Rd α} {P : α → Prop}
    (hm : c → Yields m P) (hn : ¬ c → Yields n P) :
    Yields (if c then m else n) P := by
  split
  · exact hm ‹_›
  · exact hn ‹_›

/-! ### SameAccept -/

theorem SameAccept.discard (m : Rd α) : SameAccept m m.discard := by
  intro s r
  simp only [Rd.discard, bind_ok]
  constructor
  · rintro ⟨a, r', h1, h2⟩
    simp at h2; subst h2; exact ⟨a, h1⟩
  · rintro ⟨a, h⟩
    exact ⟨a, r, h, rfl⟩

theorem SameAccept.agree {m : Rd α} {k : Rd Unit} (h : SameAccept m k) : Agree m k :=
  fun s a r hs => ⟨(), (h s r).2 ⟨a, hs⟩⟩

theorem SameAccept.bind {m : Rd α} {f : α → Rd β} {k l : Rd Unit}
    (hm : SameAccept m k) (hf : ∀ a, SameAccept (f a) l) : SameAccept (m >>= f) (k >>= fun _ => l) := by
  intro s r
  simp only [bind_ok]
  constructor
  · rintro ⟨a, r', h1, h2⟩
    obtain ⟨x, hx⟩ := (hm _ _).1 h1
    obtain ⟨y, hy⟩ := (hf x _ _).1 h2
    exact ⟨y, x, r', hx, hy⟩
  · rintro ⟨y, x, r', hx, hy⟩
    exact ⟨(), r', (hm _ _).2 ⟨x, hx⟩, (hf x _ _).2 ⟨y, hy⟩⟩

theorem SameAccept.map {m : Rd α} {f : α → β} {k : Rd Unit}
    (hm : SameAccept m k) : SameAccept (m >>= fun a => pure (f a)) k := by
  intro s r
  rw [hm s r]
  simp only [bind_ok]
  constructor
  · rintro ⟨a, h⟩; exact ⟨f a, a, r, h, rfl⟩
  · rintro ⟨b, a, r', h, h2⟩; simp at h2; exact ⟨a, by rw [h, h2.2]⟩

theorem SameAccept.readN {m : Rd α} {k : Rd Unit} (h : SameAccept m k) (n : Nat) :
    SameAccept (readN n m) (repeatN n k) := by
  induction n with
  | zero => intro s r; simp [Rd.readN, Rd.repeatN]
  | succ n ih => exact SameAccept.bind h fun a => SameAccept.map ih

/-! ### Round trips -/

theorem readN_append {m : Rd α} {enc : α → Res Bytes}
    {l : List α} (hrt : ∀ a ∈ l, ∀ b t, enc a = .ok b → m (b ++ t) = .ok (a, t)) :
    ∀ {b : Bytes}, encList enc l = .ok b → ∀ t, readN l.length m (b ++ t) = .ok (l, t) := by
  induction l with
  | nil => intro b h t; simp [encList] at h; subst h; simp [readN]
  | cons a l ih =>
    intro b h t
    simp only [encList, Res.bind_eq_ok] at h
    obtain ⟨x, hx, y, hy, h⟩ := h
    simp at h
    subst h
    simp only [List.length_cons, readN]
    rw [List.append_assoc, bind_of_ok (hrt a (by simp) x _ hx),
      bind_of_ok (ih (fun a ha => hrt a (by simp [ha])) hy t)]
    rfl

end Rd

theorem encList_ok {enc : α → Res Bytes} {l : List α} (h : ∀ a ∈ l, ∃ b, enc a = .ok b) :
    ∃ b, encList enc l = .ok b := by
  induction l with
  | nil => exact ⟨[], rfl⟩
  | cons a l ih =>
    obtain ⟨x, hx⟩ := h a (by simp)
    obtain ⟨y, hy⟩ := ih fun a ha => h a (by simp [ha])
    exact ⟨x ++ y, by simp [encList, hx, hy]⟩

end Revision
