import Verif.Spec.Walk
import Verif.Spec.Ty
import Verif.Proofs.Ty

/-! Lemmas about walkers. -/

namespace Revision

theorem withLengthPrefixedBytes_eq (cfg : Cfg) (f : Bytes → β) :
    withLengthPrefixedBytes cfg f = (do
      let n ← readLen cfg
      let b ← Rd.readExact n
      pure (f b)) := by
  ext s : 1
  simp only [withLengthPrefixedBytes, Rd.bind_run]
  cases readLen cfg s with
  | err e => rfl
  | panic => rfl
  | ok p =>
    simp only [Rd.peek, Rd.readExact, Rd.advance]
    by_cases h : p.1 ≤ p.2.length <;> simp [h]

theorem readBytes_withBytes {cfg : Cfg} {cap : Nat → Bool} {s b r : Bytes} (f : Bytes → β)
    (h : readBytes cfg cap s = .ok (b, r)) : withLengthPrefixedBytes cfg f s = .ok (f b, r) := by
  rw [withLengthPrefixedBytes_eq]
  simp only [readBytes] at h
  obtain ⟨n, r1, h1, h2⟩ := Rd.bind_ok.1 h
  rw [Rd.bind_of_ok h1]
  by_cases h0 : n = 0
  · subst h0
    simp at h2
    obtain ⟨rfl, rfl⟩ := h2
    simp [Rd.bind_run, Rd.readExact]
  · rw [if_neg h0] at h2
    cases hc : cap n with
    | false => simp [hc, Rd.alloc, Rd.bind_run] at h2
    | true =>
      rw [hc, Rd.alloc_true, Rd.pure_bind] at h2
      rw [Rd.bind_of_ok h2]; rfl

theorem withBytes_readBytes {cfg : Cfg} {cap : Nat → Bool} (hcap : ∀ n, cap n = true)
    {s b r : Bytes} (h : withLengthPrefixedBytes cfg id s = .ok (b, r)) :
    readBytes cfg cap s = .ok (b, r) := by
  rw [withLengthPrefixedBytes_eq] at h
  simp only [readBytes]
  obtain ⟨n, r1, h1, h2⟩ := Rd.bind_ok.1 h
  rw [Rd.bind_of_ok h1]
  obtain ⟨b', r2, h3, h4⟩ := Rd.bind_ok.1 h2
  simp at h4
  obtain ⟨rfl, rfl⟩ := h4
  by_cases h0 : n = 0
  · subst h0
    simp [Rd.readExact] at h3
    simp [← h3.1, ← h3.2]
  · rw [if_neg h0, hcap, Rd.alloc_true, Rd.pure_bind, h3]

/-! ### Sequences and maps visited by observers -/

theorem readN_succ_ok {m : Rd α} {n : Nat} {s r : Bytes} {l : List α}
    (h : Rd.readN (n + 1) m s = .ok (l, r)) :
    ∃ a l' r', l = a :: l' ∧ m s = .ok (a, r') ∧ Rd.readN n m r' = .ok (l', r) := by
  rw [Rd.readN] at h
  obtain ⟨a, r1, h1, h2⟩ := Rd.bind_ok.1 h
  obtain ⟨l', r2, h3, h4⟩ := Rd.bind_ok.1 h2
  simp at h4
  obtain ⟨rfl, rfl⟩ := h4
  exact ⟨a, l', r1, rfl, h1, h3⟩

theorem readN_length {m : Rd α} {n : Nat} {s r : Bytes} {l : List α}
    (h : Rd.readN n m s = .ok (l, r)) : l.length = n :=
  ((Rd.Yields.readN (P := fun _ => True) Rd.Yields.trivial n) s l r h).1

theorem seqVisit_readN {c : Codec α} (os : List (Observer c β)) {n : Nat} {s r : Bytes}
    {l : List α} (h : Rd.readN n c.dec s = .ok (l, r)) :
    ∃ r', seqVisit os ⟨n⟩ s = .ok ((List.zipWith (fun o a => o.view a) os l, ⟨n - os.length⟩), r') ∧
      Rd.readN (n - os.length) c.dec r' = .ok (l.drop os.length, r) := by
  induction os generalizing n s l with
  | nil => exact ⟨s, rfl, by simpa using h⟩
  | cons o os ih =>
    cases n with
    | zero =>
      simp [Rd.readN] at h
      obtain ⟨rfl, rfl⟩ := h
      exact ⟨s, by simp [seqVisit, SeqWalker.item], by simp [Rd.readN]⟩
    | succ n =>
      obtain ⟨a, l', r1, rfl, h1, h2⟩ := readN_succ_ok h
      obtain ⟨r', h3, h4⟩ := ih h2
      refine ⟨r', ?_, ?_⟩
      · simp only [seqVisit, SeqWalker.item, if_neg (Nat.succ_ne_zero n), Rd.bind_assoc]
        rw [Rd.bind_of_ok (o.follows _ _ _ h1)]
        simp only [Rd.pure_bind, Nat.add_sub_cancel]
        rw [Rd.bind_of_ok h3]
        simp
      · simpa [Nat.add_sub_add_right] using h4

theorem pairC_dec_ok {k : Codec κ} {v : Codec α} {s r : Bytes} {p : κ × α}
    (h : (pairC k v).dec s = .ok (p, r)) :
    ∃ r1, k.dec s = .ok (p.1, r1) ∧ v.dec r1 = .ok (p.2, r) := by
  simp only [pairC] at h
  obtain ⟨a, r1, h1, h2⟩ := Rd.bind_ok.1 h
  obtain ⟨b, r2, h3, h4⟩ := Rd.bind_ok.1 h2
  simp at h4
  obtain ⟨rfl, rfl⟩ := h4
  exact ⟨r1, h1, h3⟩

theorem mapVisit_readN {k : Codec κ} {v : Codec α} (os : List (Observer k β × Observer v γ))
    {n : Nat} {s r : Bytes} {l : List (κ × α)} (h : Rd.readN n (pairC k v).dec s = .ok (l, r)) :
    ∃ r', mapVisit os ⟨n⟩ s =
        .ok ((List.zipWith (fun o e => (o.1.view e.1, o.2.view e.2)) os l, ⟨n - os.length⟩), r') ∧
      Rd.readN (n - os.length) (pairC k v).dec r' = .ok (l.drop os.length, r) := by
  induction os generalizing n s l with
  | nil => exact ⟨s, rfl, by simpa using h⟩
  | cons o os ih =>
    cases n with
    | zero =>
      simp [Rd.readN] at h
      obtain ⟨rfl, rfl⟩ := h
      exact ⟨s, by simp [mapVisit, MapWalker.nextEntry], by simp [Rd.readN]⟩
    | succ n =>
      obtain ⟨e, l', r1, rfl, h1, h2⟩ := readN_succ_ok h
      obtain ⟨r0, hk, hv⟩ := pairC_dec_ok h1
      obtain ⟨r', h3, h4⟩ := ih h2
      obtain ⟨ko, vo⟩ := o
      refine ⟨r', ?_, ?_⟩
      · simp only [mapVisit, MapWalker.nextEntry, if_neg (Nat.succ_ne_zero n), MapEntry.key,
          MapEntry.value, MapEntry.expectCursor, ne_eq, not_true, if_false, Rd.lift_ok,
          Rd.pure_bind, Rd.bind_assoc]
        rw [Rd.bind_of_ok (ko.follows _ _ _ hk), Rd.bind_of_ok (vo.follows _ _ _ hv)]
        simp only [Nat.add_sub_cancel]
        rw [Rd.bind_of_ok h3]
        simp
      · simpa [Nat.add_sub_add_right] using h4

/-! ### find -/

theorem findLoop_readN {key : Rd κ'} {view : κ → κ'} {k : Codec κ} {v : Codec α}
    (hkey : ∀ s a r, k.dec s = .ok (a, r) → key s = .ok (view a, r))
    (hk : k.dec.Agree k.skip) (hv : v.dec.Agree v.skip)
    (pred : κ' → Ordering) {n : Nat} {s r : Bytes} {l : List (κ × α)}
    (h : Rd.readN n (pairC k v).dec s = .ok (l, r))
    (hs : l.Pairwise fun a b => pred (view a.1) ≠ .lt → pred (view b.1) = .gt) :
    (∃ pre e post r1 r2, l = pre ++ e :: post ∧ pred (view e.1) = .eq ∧
        MapWalker.findLoop key k.skip v.skip pred n s = .ok (true, r1) ∧
        v.dec r1 = .ok (e.2, r2) ∧ Rd.readN post.length (pairC k v).dec r2 = .ok (post, r)) ∨
    ((∀ e ∈ l, pred (view e.1) ≠ .eq) ∧
        MapWalker.findLoop key k.skip v.skip pred n s = .ok (false, r)) := by
  induction n generalizing s l with
  | zero =>
    simp [Rd.readN] at h
    obtain ⟨rfl, rfl⟩ := h
    exact .inr ⟨by simp, rfl⟩
  | succ n ih =>
    obtain ⟨e, l', r1, rfl, h1, h2⟩ := readN_succ_ok h
    obtain ⟨r0, hke, hve⟩ := pairC_dec_ok h1
    obtain ⟨_, hvs⟩ := hv _ _ _ hve
    have hfl : MapWalker.findLoop key k.skip v.skip pred (n + 1) s =
        (match pred (view e.1) with
          | .lt => do
            v.skip
            MapWalker.findLoop key k.skip v.skip pred n
          | .eq => pure true
          | .gt => do
            v.skip
            Rd.repeatN n (do k.skip; v.skip)
            pure false : Rd Bool) r0 := by
      rw [MapWalker.findLoop, Rd.bind_of_ok (hkey _ _ _ hke)]
      cases pred (view e.1) <;> rfl
    rw [hfl]
    rw [List.pairwise_cons] at hs
    cases hp : pred (view e.1) with
    | lt =>
      simp only
      rw [Rd.bind_of_ok hvs]
      rcases ih h2 hs.2 with ⟨pre, e', post, q1, q2, rfl, a1, a2, a3, a4⟩ | ⟨a1, a2⟩
      · exact .inl ⟨e :: pre, e', post, q1, q2, rfl, a1, a2, a3, a4⟩
      · refine .inr ⟨?_, a2⟩
        simp only [List.mem_cons, forall_eq_or_imp]
        exact ⟨by rw [hp]; simp, a1⟩
    | eq =>
      refine .inl ⟨[], e, l', r0, r1, rfl, hp, rfl, hve, ?_⟩
      rw [readN_length h2]
      exact h2
    | gt =>
      simp only
      rw [Rd.bind_of_ok hvs]
      refine .inr ⟨?_, ?_⟩
      · simp only [List.mem_cons, forall_eq_or_imp]
        refine ⟨by rw [hp]; simp, fun b hb => ?_⟩
        rw [hs.1 b hb (by rw [hp]; simp)]
        simp
      · have hag : (pairC k v).dec.Agree (do k.skip; v.skip) :=
          Rd.Agree.bind hk fun _ _ => Rd.Agree.bind_pure_left hv
        obtain ⟨_, hx⟩ := Rd.Agree.readN hag n _ _ _ h2
        rw [Rd.bind_of_ok hx]
        rfl

/-! ### Bulk vectors -/

theorem vecOf_elementwise {cfg : Cfg} {E : Env ι} {t : Ty ι} {c : Codec (t.denote E.X)}
    (h : vecUsesBulkEncoding cfg t = false) : vecOf cfg E t c = vecC cfg (E.cap t) c := by
  cases t with
  | bool => simp_all [vecUsesBulkEncoding, vecOf]
  | float f => simp_all [vecUsesBulkEncoding, vecOf]
  | uuid => simp_all [vecUsesBulkEncoding, vecOf]
  | int k =>
    cases hs : cfg.specialised
    · simp [vecOf, hs]
    · cases k <;> simp_all [vecUsesBulkEncoding, vecOf]
  | _ => rfl

end Revision

namespace Revision

/-! ### Following a plan -/

theorem vecC_dec_ok {cfg : Cfg} {cap : Nat → Bool} {c : Codec α} {s r : Bytes} {l : List α}
    (h : (vecC cfg cap c).dec s = .ok (l, r)) :
    ∃ r1, readLen cfg s = .ok (l.length, r1) ∧ Rd.readN l.length c.dec r1 = .ok (l, r) := by
  simp only [vecC] at h
  obtain ⟨n, r1, h1, h2⟩ := Rd.bind_ok.1 h
  by_cases h0 : n = 0
  · subst h0
    simp at h2
    obtain ⟨rfl, rfl⟩ := h2
    exact ⟨r1, h1, rfl⟩
  · rw [if_neg h0] at h2
    cases hc : cap n with
    | false => simp [hc, Rd.alloc, Rd.bind_run] at h2
    | true =>
      rw [hc, Rd.alloc_true, Rd.pure_bind] at h2
      have := readN_length h2
      subst this
      exact ⟨r1, h1, h2⟩

theorem seqLoop_agree {c : Codec α} {item : Nat → Rd (List τ)} {skip : Rd Unit}
    (hi : ∀ i, c.dec.Agree (item i)) (hk : c.dec.Agree skip) (stop i : Nat) {n : Nat}
    {s r : Bytes} {l : List α} (h : Rd.readN n c.dec s = .ok (l, r)) :
    ∃ x, seqLoop item skip stop i ⟨n⟩ s = .ok (x, r) := by
  induction stop generalizing i n s l with
  | zero =>
    obtain ⟨_, hx⟩ := Rd.Agree.readN hk n _ _ _ h
    exact ⟨[], by rw [seqLoop, SeqWalker.skipRemaining, Rd.bind_of_ok hx]; rfl⟩
  | succ stop ih =>
    cases n with
    | zero =>
      simp [Rd.readN] at h
      obtain ⟨rfl, rfl⟩ := h
      exact ⟨[], by simp [seqLoop, SeqWalker.item]⟩
    | succ n =>
      obtain ⟨a, l', r1, rfl, h1, h2⟩ := readN_succ_ok h
      obtain ⟨x, hx⟩ := hi i _ _ _ h1
      obtain ⟨xs, hxs⟩ := ih (i + 1) h2
      refine ⟨x ++ xs, ?_⟩
      simp only [seqLoop, SeqWalker.item, if_neg (Nat.succ_ne_zero n), Rd.bind_assoc]
      rw [Rd.bind_of_ok hx]
      simp only [Rd.pure_bind, Nat.add_sub_cancel]
      rw [Rd.bind_of_ok hxs]
      rfl

theorem mapLoop_agree {k : Codec κ} {v : Codec α} {key value : Nat → Rd (List τ)}
    (hki : ∀ i, k.dec.Agree (key i)) (hvi : ∀ i, v.dec.Agree (value i))
    (hk : k.dec.Agree k.skip) (hv : v.dec.Agree v.skip) (stop i : Nat) {n : Nat}
    {s r : Bytes} {l : List (κ × α)} (h : Rd.readN n (pairC k v).dec s = .ok (l, r)) :
    ∃ x, mapLoop key value k.skip v.skip stop i ⟨n⟩ s = .ok (x, r) := by
  induction stop generalizing i n s l with
  | zero =>
    have hag : (pairC k v).dec.Agree (do k.skip; v.skip) :=
      Rd.Agree.bind hk fun _ _ => Rd.Agree.bind_pure_left hv
    obtain ⟨_, hx⟩ := Rd.Agree.readN hag n _ _ _ h
    exact ⟨[], by rw [mapLoop, MapWalker.skipRemaining, Rd.bind_of_ok hx]; rfl⟩
  | succ stop ih =>
    cases n with
    | zero =>
      simp [Rd.readN] at h
      obtain ⟨rfl, rfl⟩ := h
      exact ⟨[], by simp [mapLoop, MapWalker.nextEntry]⟩
    | succ n =>
      obtain ⟨e, l', r1, rfl, h1, h2⟩ := readN_succ_ok h
      obtain ⟨r0, hke, hve⟩ := pairC_dec_ok h1
      obtain ⟨x, hx⟩ := hki i _ _ _ hke
      obtain ⟨y, hy⟩ := hvi i _ _ _ hve
      obtain ⟨xs, hxs⟩ := ih (i + 1) h2
      refine ⟨x ++ (y ++ xs), ?_⟩
      simp only [mapLoop, MapWalker.nextEntry, if_neg (Nat.succ_ne_zero n), MapEntry.key,
        MapEntry.value, MapEntry.expectCursor, ne_eq, not_true, if_false, Rd.lift_ok,
        Rd.pure_bind, Rd.bind_assoc]
      rw [Rd.bind_of_ok hx, Rd.bind_of_ok hy]
      simp only [Nat.add_sub_cancel]
      rw [Rd.bind_of_ok hxs]
      rfl

theorem keyPlan_agree {k : Codec κ} {m : κ → List τ} (hk : k.dec.Agree k.skip) (p : Plan) :
    k.dec.Agree (match p with
      | .decode => do
        let a ← k.dec
        pure (m a)
      | _ => do
        k.skip
        pure [] : Rd (List τ)) := by
  cases p
  · exact Rd.Agree.bind_pure_right (Rd.Agree.refl _)
  · exact Rd.Agree.bind_pure_right hk
  · exact Rd.Agree.bind_pure_right hk

theorem seqInto_agree {cfg : Cfg} {cap : Nat → Bool} {c : Codec α} {item : Nat → Rd (List τ)}
    (hi : ∀ i, c.dec.Agree (item i)) (hk : c.dec.Agree c.skip) (stop : Nat) :
    (vecC cfg cap c).dec.Agree (do
      let w ← SeqWalker.new cfg
      seqLoop item c.skip stop 0 w) := by
  intro s l r h
  obtain ⟨r1, h1, h2⟩ := vecC_dec_ok h
  obtain ⟨x, hx⟩ := seqLoop_agree hi hk stop 0 h2
  refine ⟨x, ?_⟩
  simp only [SeqWalker.new, Rd.bind_assoc, Rd.pure_bind]
  rw [Rd.bind_of_ok h1, hx]

theorem mapInto_agree {cfg : Cfg} {cap : Nat → Bool} {k : Codec κ} {v : Codec α}
    {key value : Nat → Rd (List τ)}
    (hki : ∀ i, k.dec.Agree (key i)) (hvi : ∀ i, v.dec.Agree (value i))
    (hk : k.dec.Agree k.skip) (hv : v.dec.Agree v.skip) (stop : Nat) :
    (vecC cfg cap (pairC k v)).dec.Agree (do
      let w ← MapWalker.new cfg
      mapLoop key value k.skip v.skip stop 0 w) := by
  intro s l r h
  obtain ⟨r1, h1, h2⟩ := vecC_dec_ok h
  obtain ⟨x, hx⟩ := mapLoop_agree hki hvi hk hv stop 0 h2
  refine ⟨x, ?_⟩
  simp only [MapWalker.new, Rd.bind_assoc, Rd.pure_bind]
  rw [Rd.bind_of_ok h1, hx]

theorem coll_agree {cfg : Cfg} {cap : Nat → Bool} {c : Codec α} {inv build} {m : Rd β}
    (h : (vecC cfg cap c).dec.Agree m) : (collC cfg cap c inv build).dec.Agree m := by
  intro s v r hs
  obtain ⟨l, h1, _⟩ := coll_wire cfg hs
  exact h _ _ _ h1

theorem OptionWalker.new_ok {cfg : Cfg} {c : Codec α} {s r : Bytes} {v : Option α}
    (h : (optionC cfg c).dec s = .ok (v, r)) :
    (v = none ∧ OptionWalker.new cfg s = .ok (⟨0⟩, r)) ∨
    ∃ a r1, v = some a ∧ OptionWalker.new cfg s = .ok (⟨1⟩, r1) ∧ c.dec r1 = .ok (a, r) := by
  simp only [optionC] at h
  obtain ⟨t, r1, h1, h2⟩ := Rd.bind_ok.1 h
  by_cases h0 : t = 0
  · rw [if_pos h0] at h2
    simp at h2
    obtain ⟨rfl, rfl⟩ := h2
    refine .inl ⟨rfl, ?_⟩
    rw [OptionWalker.new, Rd.bind_of_ok h1, if_pos (.inl h0), h0]; rfl
  · rw [if_neg h0] at h2
    by_cases h1' : t = 1
    · rw [if_pos h1'] at h2
      obtain ⟨a, r2, h3, h4⟩ := Rd.bind_ok.1 h2
      simp at h4
      obtain ⟨rfl, rfl⟩ := h4
      refine .inr ⟨a, r1, rfl, ?_, h3⟩
      rw [OptionWalker.new, Rd.bind_of_ok h1, if_pos (.inr h1'), h1']; rfl
    · rw [if_neg h1'] at h2
      simp at h2

theorem ResultWalker.new_ok {cfg : Cfg} {c : Codec α} {d : Codec β} {s r : Bytes} {v : Except β α}
    (h : (resultC cfg c d).dec s = .ok (v, r)) :
    (∃ a r1, v = .ok a ∧ ResultWalker.new cfg s = .ok (⟨0⟩, r1) ∧ c.dec r1 = .ok (a, r)) ∨
    ∃ e r1, v = .error e ∧ ResultWalker.new cfg s = .ok (⟨1⟩, r1) ∧ d.dec r1 = .ok (e, r) := by
  simp only [resultC] at h
  obtain ⟨t, r1, h1, h2⟩ := Rd.bind_ok.1 h
  by_cases h0 : t = 0
  · rw [if_pos h0] at h2
    obtain ⟨a, r2, h3, h4⟩ := Rd.bind_ok.1 h2
    simp at h4
    obtain ⟨rfl, rfl⟩ := h4
    refine .inl ⟨a, r1, rfl, ?_, Rd.mapErr_ok.1 h3⟩
    rw [ResultWalker.new, Rd.bind_of_ok h1, if_pos (.inl h0), h0]; rfl
  · rw [if_neg h0] at h2
    by_cases h1' : t = 1
    · rw [if_pos h1'] at h2
      obtain ⟨a, r2, h3, h4⟩ := Rd.bind_ok.1 h2
      simp at h4
      obtain ⟨rfl, rfl⟩ := h4
      refine .inr ⟨a, r1, rfl, ?_, Rd.mapErr_ok.1 h3⟩
      rw [ResultWalker.new, Rd.bind_of_ok h1, if_pos (.inr h1'), h1']; rfl
    · rw [if_neg h1'] at h2
      simp at h2

theorem Ty.traverse_agree (cfg : Cfg) {E : Env ι} (hE : E.Lawful) (t : Ty ι) (p : Plan) :
    (t.codec cfg E).dec.Agree (t.traverse cfg E p) := by
  have hsk := fun t : Ty ι => (t.codec_lawful cfg hE).skip_agree
  induction t generalizing p with
  | wrap t ih =>
    cases p
    · exact Rd.Agree.bind_pure_right (Rd.Agree.refl _)
    · exact Rd.Agree.bind_pure_right (hsk _)
    · exact ih _
  | option t ih =>
    cases p
    · exact Rd.Agree.bind_pure_right (Rd.Agree.refl _)
    · exact Rd.Agree.bind_pure_right (hsk _)
    · rename_i f n
      intro s v r h
      simp only [Ty.traverse]
      rcases OptionWalker.new_ok h with ⟨rfl, h1⟩ | ⟨a, r1, rfl, h1, h2⟩
      · rw [Rd.bind_of_ok h1]
        exact ⟨[], rfl⟩
      · rw [Rd.bind_of_ok h1]
        exact ih (f 0) _ _ _ h2
  | result t e iht ihe =>
    cases p
    · exact Rd.Agree.bind_pure_right (Rd.Agree.refl _)
    · exact Rd.Agree.bind_pure_right (hsk _)
    · rename_i f n
      intro s v r h
      simp only [Ty.traverse]
      rcases ResultWalker.new_ok h with ⟨a, r1, rfl, h1, h2⟩ | ⟨a, r1, rfl, h1, h2⟩
      · rw [Rd.bind_of_ok h1]
        exact iht (f 0) _ _ _ h2
      · rw [Rd.bind_of_ok h1]
        exact ihe (f 1) _ _ _ h2
  | vec t ih =>
    cases p
    · exact Rd.Agree.bind_pure_right (Rd.Agree.refl _)
    · exact Rd.Agree.bind_pure_right (hsk _)
    · rename_i f n
      simp only [Ty.traverse]
      cases hb : vecUsesBulkEncoding cfg t
      · simp only [Ty.codec]
        rw [vecOf_elementwise hb]
        exact seqInto_agree (fun i => ih (f i)) (hsk t) n
      · exact Rd.Agree.bind_pure_right (hsk _)
  | btreeSet t ih | hashSet t ih | binaryHeap t ih | vector t ih =>
    cases p
    · exact Rd.Agree.bind_pure_right (Rd.Agree.refl _)
    · exact Rd.Agree.bind_pure_right (hsk _)
    · rename_i f n
      exact coll_agree (seqInto_agree (fun i => ih (f i)) (hsk t) n)
  | btreeMap k v ihk ihv | hashMap k v ihk ihv =>
    cases p
    · exact Rd.Agree.bind_pure_right (Rd.Agree.refl _)
    · exact Rd.Agree.bind_pure_right (hsk _)
    · rename_i f n
      exact coll_agree (mapInto_agree (fun i => keyPlan_agree (hsk k) (f (2 * i)))
        (fun i => ihv (f (2 * i + 1))) (hsk k) (hsk v) n)
  | _ =>
    cases p
    · exact Rd.Agree.bind_pure_right (Rd.Agree.refl _)
    · exact Rd.Agree.bind_pure_right (hsk _)
    · exact Rd.Agree.bind_pure_right (hsk _)

/-! ### Following a plan through a serialised value -/

theorem seqLoop_enc {enc : α → Res Bytes} {item : Nat → Rd (List τ)} {skip : Rd Unit}
    {view : Nat → α → List τ} (stop i : Nat) {l : List α} {b : Bytes}
    (hi : ∀ i, ∀ a ∈ l, ∀ b t, enc a = .ok b → item i (b ++ t) = .ok (view i a, t))
    (hk : ∀ a ∈ l, ∀ b t, enc a = .ok b → skip (b ++ t) = .ok ((), t))
    (h : encList enc l = .ok b) (t : Bytes) :
    seqLoop item skip stop i ⟨l.length⟩ (b ++ t) =
      .ok (((l.take stop).zipIdx i).flatMap fun p => view p.2 p.1, t) := by
  induction stop generalizing i l b with
  | zero =>
    have : Rd.repeatN l.length skip (b ++ t) = .ok ((), t) := by
      clear hi
      induction l generalizing b with
      | nil => simp [encList] at h; subst h; rfl
      | cons a l ih =>
        simp only [encList] at h
        obtain ⟨x, hx, h⟩ := Res.bind_eq_ok.1 h
        obtain ⟨y, hy, h⟩ := Res.bind_eq_ok.1 h
        simp at h
        subst h
        rw [List.length_cons, Rd.repeatN, List.append_assoc, Rd.bind_of_ok (hk a (by simp) x _ hx)]
        exact ih (fun a ha => hk a (by simp [ha])) hy
    rw [seqLoop, SeqWalker.skipRemaining, Rd.bind_of_ok this]
    simp
  | succ stop ih =>
    cases l with
    | nil => simp [encList] at h; subst h; simp [seqLoop, SeqWalker.item]
    | cons a l =>
      simp only [encList] at h
      obtain ⟨x, hx, h⟩ := Res.bind_eq_ok.1 h
      obtain ⟨y, hy, h⟩ := Res.bind_eq_ok.1 h
      simp at h
      subst h
      simp only [seqLoop, SeqWalker.item, List.length_cons, if_neg (Nat.succ_ne_zero _),
        Rd.bind_assoc, List.append_assoc]
      rw [Rd.bind_of_ok (hi i a (by simp) x _ hx)]
      simp only [Rd.pure_bind, Nat.add_sub_cancel]
      rw [Rd.bind_of_ok (ih (i + 1) (fun i a ha => hi i a (by simp [ha]))
        (fun a ha => hk a (by simp [ha])) hy)]
      simp

theorem mapLoop_enc {k : Codec κ} {v : Codec α} {key value : Nat → Rd (List τ)}
    {kview : Nat → κ → List τ} {vview : Nat → α → List τ} (stop i : Nat) {l : List (κ × α)} {b : Bytes}
    (hki : ∀ i, ∀ e ∈ l, ∀ b t, k.enc e.1 = .ok b → key i (b ++ t) = .ok (kview i e.1, t))
    (hvi : ∀ i, ∀ e ∈ l, ∀ b t, v.enc e.2 = .ok b → value i (b ++ t) = .ok (vview i e.2, t))
    (hk : ∀ e ∈ l, ∀ b t, k.enc e.1 = .ok b → k.skip (b ++ t) = .ok ((), t))
    (hv : ∀ e ∈ l, ∀ b t, v.enc e.2 = .ok b → v.skip (b ++ t) = .ok ((), t))
    (h : encList (pairC k v).enc l = .ok b) (t : Bytes) :
    mapLoop key value k.skip v.skip stop i ⟨l.length⟩ (b ++ t) =
      .ok (((l.take stop).zipIdx i).flatMap fun p => kview p.2 p.1.1 ++ vview p.2 p.1.2, t) := by
  induction stop generalizing i l b with
  | zero =>
    have : Rd.repeatN l.length (do k.skip; v.skip) (b ++ t) = .ok ((), t) := by
      clear hki hvi
      induction l generalizing b with
      | nil => simp [encList] at h; subst h; rfl
      | cons a l ih =>
        simp only [encList] at h
        obtain ⟨x, hx, h⟩ := Res.bind_eq_ok.1 h
        obtain ⟨y, hy, h⟩ := Res.bind_eq_ok.1 h
        simp at h
        subst h
        simp only [pairC] at hx
        obtain ⟨x1, hx1, hx⟩ := Res.bind_eq_ok.1 hx
        obtain ⟨x2, hx2, hx⟩ := Res.bind_eq_ok.1 hx
        simp at hx
        subst hx
        rw [List.length_cons, Rd.repeatN, List.append_assoc, List.append_assoc, Rd.bind_assoc,
          Rd.bind_of_ok (hk a (by simp) x1 _ hx1), Rd.bind_of_ok (hv a (by simp) x2 _ hx2)]
        exact ih (fun a ha => hk a (by simp [ha])) (fun a ha => hv a (by simp [ha])) hy
    rw [mapLoop, MapWalker.skipRemaining, Rd.bind_of_ok this]
    simp
  | succ stop ih =>
    cases l with
    | nil => simp [encList] at h; subst h; simp [mapLoop, MapWalker.nextEntry]
    | cons a l =>
      simp only [encList] at h
      obtain ⟨x, hx, h⟩ := Res.bind_eq_ok.1 h
      obtain ⟨y, hy, h⟩ := Res.bind_eq_ok.1 h
      simp at h
      subst h
      simp only [pairC] at hx
      obtain ⟨x1, hx1, hx⟩ := Res.bind_eq_ok.1 hx
      obtain ⟨x2, hx2, hx⟩ := Res.bind_eq_ok.1 hx
      simp at hx
      subst hx
      simp only [mapLoop, MapWalker.nextEntry, List.length_cons, if_neg (Nat.succ_ne_zero _),
        MapEntry.key, MapEntry.value, MapEntry.expectCursor, ne_eq, not_true, if_false, Rd.lift_ok,
        Rd.pure_bind, Rd.bind_assoc, List.append_assoc]
      rw [Rd.bind_of_ok (hki i a (by simp) x1 _ hx1), Rd.bind_of_ok (hvi i a (by simp) x2 _ hx2)]
      simp only [Nat.add_sub_cancel]
      rw [Rd.bind_of_ok (ih (i + 1) (fun i a ha => hki i a (by simp [ha]))
        (fun i a ha => hvi i a (by simp [ha])) (fun a ha => hk a (by simp [ha]))
        (fun a ha => hv a (by simp [ha])) hy)]
      simp

end Revision

namespace Revision

theorem skip_enc {c : Codec α} (hc : c.Lawful) {a : α} {b : Bytes} (hv : c.valid a)
    (h : c.enc a = .ok b) (t : Bytes) : c.skip (b ++ t) = .ok ((), t) := by
  obtain ⟨_, hx⟩ := hc.skip_agree _ _ _ (hc.round_trip a b hv h t)
  exact hx

theorem seqInto_enc {cfg : Cfg} {c : Codec α} (hc : c.Lawful) {item : Nat → Rd (List τ)}
    {view : Nat → α → List τ} {l : List α} {b : Bytes}
    (hn : l.length < 2 ^ 64) (hv : ∀ a ∈ l, c.valid a)
    (hi : ∀ i, ∀ a ∈ l, ∀ b t, c.enc a = .ok b → item i (b ++ t) = .ok (view i a, t))
    (h : (do
      let b ← encList c.enc l
      pure (encLen cfg l.length ++ b)) = .ok b) (stop : Nat) (t : Bytes) :
    (do
      let w ← SeqWalker.new cfg
      seqLoop item c.skip stop 0 w : Rd _) (b ++ t) =
      .ok ((l.take stop).zipIdx.flatMap fun p => view p.2 p.1, t) := by
  obtain ⟨x, hx, h⟩ := Res.bind_eq_ok.1 h
  simp at h
  subst h
  simp only [SeqWalker.new, Rd.bind_assoc, Rd.pure_bind, List.append_assoc]
  rw [Rd.bind_of_ok (readLen_encLen cfg hn _)]
  exact seqLoop_enc stop 0 hi (fun a ha b t hb => skip_enc hc (hv a ha) hb t) hx t

theorem mapInto_enc {cfg : Cfg} {k : Codec κ} {v : Codec α} (hck : k.Lawful) (hcv : v.Lawful)
    {key value : Nat → Rd (List τ)}
    {kview : Nat → κ → List τ} {vview : Nat → α → List τ} {l : List (κ × α)} {b : Bytes}
    (hn : l.length < 2 ^ 64) (hv : ∀ a ∈ l, (pairC k v).valid a)
    (hki : ∀ i, ∀ e ∈ l, ∀ b t, k.enc e.1 = .ok b → key i (b ++ t) = .ok (kview i e.1, t))
    (hvi : ∀ i, ∀ e ∈ l, ∀ b t, v.enc e.2 = .ok b → value i (b ++ t) = .ok (vview i e.2, t))
    (h : (do
      let b ← encList (pairC k v).enc l
      pure (encLen cfg l.length ++ b)) = .ok b) (stop : Nat) (t : Bytes) :
    (do
      let w ← MapWalker.new cfg
      mapLoop key value k.skip v.skip stop 0 w : Rd _) (b ++ t) =
      .ok ((l.take stop).zipIdx.flatMap fun p => kview p.2 p.1.1 ++ vview p.2 p.1.2, t) := by
  obtain ⟨x, hx, h⟩ := Res.bind_eq_ok.1 h
  simp at h
  subst h
  simp only [MapWalker.new, Rd.bind_assoc, Rd.pure_bind, List.append_assoc]
  rw [Rd.bind_of_ok (readLen_encLen cfg hn _)]
  exact mapLoop_enc stop 0 hki hvi (fun a ha b t hb => skip_enc hck (hv a ha).1 hb t)
    (fun a ha b t hb => skip_enc hcv (hv a ha).2 hb t) hx t

theorem keyPlan_enc {k : Codec κ} (hk : k.Lawful) {m : κ → List τ} (p : Plan) {a : κ} {b : Bytes}
    (hv : k.valid a) (h : k.enc a = .ok b) (t : Bytes) :
    (match p with
      | .decode => do
        let a ← k.dec
        pure (m a)
      | _ => do
        k.skip
        pure [] : Rd (List τ)) (b ++ t) = .ok (match p with
      | .decode => m a
      | _ => [], t) := by
  cases p
  · simp only
    rw [Rd.bind_of_ok (hk.round_trip a b hv h t)]; rfl
  · simp only
    rw [Rd.bind_of_ok (skip_enc hk hv h t)]; rfl
  · simp only
    rw [Rd.bind_of_ok (skip_enc hk hv h t)]; rfl

theorem Ty.traverse_enc (cfg : Cfg) {E : Env ι} (hE : E.Lawful) (t : Ty ι) (p : Plan)
    {v : t.denote E.X} {b : Bytes} (hv : (t.codec cfg E).valid v)
    (hb : (t.codec cfg E).enc v = .ok b) (r : Bytes) :
    t.traverse cfg E p (b ++ r) = .ok (t.seen cfg E p v, r) := by
  have hl := fun t : Ty ι => t.codec_lawful cfg hE
  have hdec : ∀ (t : Ty ι) {v : t.denote E.X} {b : Bytes} (r : Bytes), (t.codec cfg E).valid v →
      (t.codec cfg E).enc v = .ok b → (do
        let v ← (t.codec cfg E).dec
        pure [⟨t, v⟩] : Rd (List (Seen E))) (b ++ r) = .ok ([⟨t, v⟩], r) := by
    intro t v b r hv hb
    rw [Rd.bind_of_ok ((hl t).round_trip v b hv hb r)]; rfl
  have hskip : ∀ (t : Ty ι) {v : t.denote E.X} {b : Bytes} (r : Bytes), (t.codec cfg E).valid v →
      (t.codec cfg E).enc v = .ok b → (do
        (t.codec cfg E).skip
        pure [] : Rd (List (Seen E))) (b ++ r) = .ok ([], r) := by
    intro t v b r hv hb
    rw [Rd.bind_of_ok (skip_enc (hl t) hv hb r)]; rfl
  induction t generalizing p b r with
  | wrap t ih =>
    cases p
    · exact hdec _ _ hv hb
    · exact hskip _ _ hv hb
    · exact ih _ hv hb _
  | option t ih =>
    cases p
    · exact hdec _ _ hv hb
    · exact hskip _ _ hv hb
    · rename_i f n
      have hd := (hl (.option t)).round_trip v b hv hb r
      simp only [Ty.traverse]
      rcases OptionWalker.new_ok hd with ⟨rfl, h1⟩ | ⟨a, r1, rfl, h1, h2⟩
      · rw [Rd.bind_of_ok h1]; rfl
      · rw [Rd.bind_of_ok h1]
        simp only [Ty.codec, optionC] at hb
        obtain ⟨x, hx, hb⟩ := Res.bind_eq_ok.1 hb
        simp only [Res.pure_def, Res.ok.injEq] at hb
        subst hb
        have h3 : OptionWalker.new cfg (encInt cfg .u8 1 ++ (x ++ r)) = .ok (⟨1⟩, x ++ r) := by
          rw [OptionWalker.new, Rd.bind_of_ok (decInt_encInt cfg .u8 1 _)]; rfl
        rw [List.append_assoc, h3] at h1
        simp at h1
        rw [← h1]
        exact ih (f 0) hv hx _
  | result t e iht ihe =>
    cases p
    · exact hdec _ _ hv hb
    · exact hskip _ _ hv hb
    · rename_i f n
      simp only [Ty.traverse]
      cases v with
      | ok a =>
        simp only [Ty.codec, resultC] at hb
        obtain ⟨x, hx, hb⟩ := Res.bind_eq_ok.1 hb
        simp only [Res.pure_def, Res.ok.injEq] at hb
        subst hb
        have h3 : ResultWalker.new cfg (encU32 cfg 0 ++ (x ++ r)) = .ok (⟨0⟩, x ++ r) := by
          rw [ResultWalker.new, Rd.bind_of_ok (readU32_encU32 cfg (by decide) _)]; rfl
        rw [List.append_assoc, Rd.bind_of_ok h3]
        exact iht (f 0) hv hx _
      | error a =>
        simp only [Ty.codec, resultC] at hb
        obtain ⟨x, hx, hb⟩ := Res.bind_eq_ok.1 hb
        simp only [Res.pure_def, Res.ok.injEq] at hb
        subst hb
        have h3 : ResultWalker.new cfg (encU32 cfg 1 ++ (x ++ r)) = .ok (⟨1⟩, x ++ r) := by
          rw [ResultWalker.new, Rd.bind_of_ok (readU32_encU32 cfg (by decide) _)]; rfl
        rw [List.append_assoc, Rd.bind_of_ok h3]
        exact ihe (f 1) hv hx _
  | vec t ih =>
    cases p
    · exact hdec _ _ hv hb
    · exact hskip _ _ hv hb
    · rename_i f n
      simp only [Ty.traverse, Ty.seen]
      cases hbk : vecUsesBulkEncoding cfg t
      · simp only [Ty.codec] at hv hb
        rw [vecOf_elementwise hbk] at hv hb
        exact seqInto_enc (hl t) hv.1 hv.2.2
          (fun i a ha b t' hb => ih (f i) (hv.2.2 a ha) hb t') hb n r
      · exact hskip _ _ hv hb
  | btreeSet t ih | hashSet t ih | binaryHeap t ih | vector t ih =>
    cases p
    · exact hdec _ _ hv hb
    · exact hskip _ _ hv hb
    · rename_i f n
      exact seqInto_enc (hl t) hv.1 hv.2.2.1
        (fun i a ha b t' hb => ih (f i) (hv.2.2.1 a ha) hb t') hb n r
  | btreeMap k v' ihk ihv | hashMap k v' ihk ihv =>
    cases p
    · exact hdec _ _ hv hb
    · exact hskip _ _ hv hb
    · rename_i f n
      exact mapInto_enc (hl k) (hl v') hv.1 hv.2.2.1
        (kview := fun i a => match f (2 * i) with
          | .decode => [⟨k, a⟩]
          | _ => [])
        (key := fun i => match f (2 * i) with
          | .decode => do
            let a ← (k.codec cfg E).dec
            pure [⟨k, a⟩]
          | _ => do
            (k.codec cfg E).skip
            pure [])
        (fun i a ha b t' hb => keyPlan_enc (hl k) (m := fun a => [(⟨k, a⟩ : Seen E)]) (f (2 * i)) (hv.2.2.1 a ha).1 hb t')
        (fun i a ha b t' hb => ihv (f (2 * i + 1)) (hv.2.2.1 a ha).2 hb t') hb n r
  | _ =>
    cases p
    · exact hdec _ _ hv hb
    · exact hskip _ _ hv hb
    · exact hskip _ _ hv hb

end Revision
