import Verif.Spec.Ask
import Verif.Proofs.MapWalk
import Verif.Proofs.Walk

/-!
# Lemmas about lookups with a closure
-/

namespace Revision

theorem Ask.run_andThen (p : σ → κ → Ordering × σ) (t : Ask κ α) (f : α → Ask κ β) (s : σ) :
    (t.andThen f).run p s = (f (t.run p s).1).run p (t.run p s).2 := by
  induction t generalizing s with
  | done a => rfl
  | ask k next ih => exact ih _ _

theorem Ask.calls_andThen (p : σ → κ → Ordering × σ) (t : Ask κ α) (f : α → Ask κ β) (s : σ) :
    (t.andThen f).calls p s = t.calls p s ++ (f (t.run p s).1).calls p (t.run p s).2 := by
  induction t generalizing s with
  | done a => rfl
  | ask k next ih => exact congrArg (_ :: ·) (ih _ _)

theorem Ask.run_recording (p : σ → κ → Ordering × σ) (t : Ask κ α) (s : σ)
    (log : List (κ × Ordering)) :
    t.run (recording p) (s, log) = ((t.run p s).1, ((t.run p s).2, log ++ t.calls p s)) := by
  induction t generalizing s log with
  | done a => simp [Ask.run, Ask.calls]
  | ask k next ih => simp [Ask.run, Ask.calls, recording, ih]

namespace IndexedMapWalker

/-- Any prologue: how many calls. -/
theorem searchAsk_calls (pr : MapPrologue) (n : Nat) (p : σ → Bytes → Ordering × σ) :
    ∀ b lo hi s, hi - lo < 2 ^ b → ((searchAsk pr n lo hi).calls p s).length ≤ b := by
  intro b
  induction b with
  | zero =>
    intro lo hi s h
    have : ¬ lo < hi := by omega
    rw [searchAsk, dif_neg this]
    exact Nat.le_refl _
  | succ b ih =>
    intro lo hi s h
    have e2 : 2 ^ (b + 1) = 2 * 2 ^ b := by rw [Nat.pow_succ, Nat.mul_comm]
    by_cases hlt : lo < hi
    · rw [searchAsk, dif_pos hlt]
      simp only
      split
      · split
        · exact Nat.zero_le _
        · rename_i key _
          simp only [Ask.calls]
          cases ho : (p s key).1 with
          | eq =>
            simp only
            split <;> exact Nat.succ_le_succ (Nat.zero_le _)
          | lt =>
            exact Nat.succ_le_succ (ih (lo + (hi - lo) / 2 + 1) hi (p s key).2 (by omega))
          | gt => exact Nat.succ_le_succ (ih lo (lo + (hi - lo) / 2) (p s key).2 (by omega))
      all_goals exact Nat.zero_le _
    · rw [searchAsk, dif_neg hlt]
      exact Nat.zero_le _

/-- The search over a valid prologue, with any closure. -/
theorem searchAsk_valid {pr : MapPrologue} {n : Nat} (hv : pr.Valid n)
    (p : σ → Bytes → Ordering × σ) :
    ∀ b lo hi s, hi ≤ n → hi - lo < 2 ^ b → ∃ talk s' r, (searchAsk pr n lo hi).calls p s = talk ∧
      (searchAsk pr n lo hi).run p s = (.ok r, s') ∧ talk.length ≤ b ∧
      (∃ idx : List Nat, talk.map Prod.fst = idx.map (pr.key n) ∧ idx.Nodup ∧
        ∀ i ∈ idx, lo ≤ i ∧ i < hi) ∧
      (r = none → ∀ e ∈ talk, e.2 ≠ .eq) ∧
      (∀ v i, r = some (v, i) → ∃ pre j, j < n ∧ talk = pre ++ [(pr.key n j, .eq)] ∧
        v = pr.val n j ∧ i = j % 2 ^ 32 ∧ ∀ e ∈ pre, e.2 ≠ .eq) := by
  intro b
  induction b with
  | zero =>
    intro lo hi s hn h
    have : ¬ lo < hi := by omega
    rw [searchAsk, dif_neg this]
    exact ⟨[], s, none, rfl, rfl, Nat.le_refl _, ⟨[], rfl, .nil, nofun⟩, nofun, nofun⟩
  | succ b ih =>
    intro lo hi s hn h
    have e2 : 2 ^ (b + 1) = 2 * 2 ^ b := by rw [Nat.pow_succ, Nat.mul_comm]
    by_cases hlt : lo < hi
    · rw [searchAsk, dif_pos hlt]
      have hm : lo + (hi - lo) / 2 < n := by omega
      generalize hmid : lo + (hi - lo) / 2 = mid at *
      simp only [MapPrologue.entryRanges_eq hv.table, if_pos hm, hv.getK hm, hv.getV hm, Ask.run, Ask.calls]
      cases ho : (p s (pr.key n mid)).1 with
      | eq =>
        refine ⟨[(pr.key n mid, .eq)], (p s (pr.key n mid)).2, some (pr.val n mid, mid % 2 ^ 32), rfl,
          rfl, by simp, ⟨[mid], rfl, by simp, ?_⟩, nofun, ?_⟩
        · intro i hi'; cases List.mem_singleton.1 hi'; omega
        · intro v i e; cases e; exact ⟨[], mid, hm, rfl, rfl, rfl, nofun⟩
      | lt =>
        obtain ⟨talk, s', r, h1, h2, h3, ⟨idx, h4, h5, h6⟩, h7, h8⟩ :=
          ih (mid + 1) hi (p s (pr.key n mid)).2 hn (by omega)
        refine ⟨(pr.key n mid, .lt) :: talk, s', r, congrArg (_ :: ·) h1, h2, by simp; omega,
          ⟨mid :: idx, by simp [h4], List.nodup_cons.2 ⟨fun hc => ?_, h5⟩, ?_⟩, ?_, ?_⟩
        · have := h6 _ hc; omega
        · intro i hi'
          rcases List.mem_cons.1 hi' with rfl | hc
          · omega
          · have := h6 _ hc; omega
        · intro hr e he
          rcases List.mem_cons.1 he with rfl | hc
          · nofun
          · exact h7 hr e hc
        · intro v i hr
          obtain ⟨pre, j, a1, a2, a3, a4, a5⟩ := h8 v i hr
          refine ⟨(pr.key n mid, .lt) :: pre, j, a1, by simp [a2], a3, a4, ?_⟩
          intro e he
          rcases List.mem_cons.1 he with rfl | hc
          · nofun
          · exact a5 e hc
      | gt =>
        obtain ⟨talk, s', r, h1, h2, h3, ⟨idx, h4, h5, h6⟩, h7, h8⟩ :=
          ih lo mid (p s (pr.key n mid)).2 (by omega) (by omega)
        refine ⟨(pr.key n mid, .gt) :: talk, s', r, congrArg (_ :: ·) h1, h2, by simp; omega,
          ⟨mid :: idx, by simp [h4], List.nodup_cons.2 ⟨fun hc => ?_, h5⟩, ?_⟩, ?_, ?_⟩
        · have := h6 _ hc; omega
        · intro i hi'
          rcases List.mem_cons.1 hi' with rfl | hc
          · omega
          · have := h6 _ hc; omega
        · intro hr e he
          rcases List.mem_cons.1 he with rfl | hc
          · nofun
          · exact h7 hr e hc
        · intro v i hr
          obtain ⟨pre, j, a1, a2, a3, a4, a5⟩ := h8 v i hr
          refine ⟨(pr.key n mid, .gt) :: pre, j, a1, by simp [a2], a3, a4, ?_⟩
          intro e he
          rcases List.mem_cons.1 he with rfl | hc
          · nofun
          · exact a5 e hc
    · rw [searchAsk, dif_neg hlt]
      exact ⟨[], s, none, rfl, rfl, Nat.zero_le _, ⟨[], rfl, .nil, nofun⟩, nofun, nofun⟩

theorem searchAsk_stateless (pr : MapPrologue) (n : Nat) {p : σ → Bytes → Ordering × σ}
    {pred : Bytes → Ordering} (hp : ∀ s k, (p s k).1 = pred k) :
    ∀ d lo hi s, hi - lo = d → ((searchAsk pr n lo hi).run p s).1 = searchLoop pr n pred lo hi := by
  intro d
  induction d using Nat.strongRecOn with
  | ind d ih =>
    intro lo hi s hd
    by_cases hlt : lo < hi
    · rw [searchAsk, searchLoop, dif_pos hlt, dif_pos hlt]
      simp only
      cases pr.entryRanges n (lo + (hi - lo) / 2) with
      | ok o =>
        cases o with
        | none => rfl
        | some q =>
          obtain ⟨⟨ks, ke⟩, vs, ve⟩ := q
          simp only
          cases getR pr.keys ks ke with
          | none => rfl
          | some key =>
            simp only [Ask.run, hp]
            cases pred key with
            | eq =>
              simp only
              cases getR pr.vals vs ve <;> rfl
            | lt => exact ih (hi - (lo + (hi - lo) / 2 + 1)) (by omega) _ _ _ rfl
            | gt => exact ih (lo + (hi - lo) / 2 - lo) (by omega) _ _ _ rfl
      | err e => rfl
      | panic => rfl
    · rw [searchAsk, searchLoop, dif_neg hlt, dif_neg hlt]; rfl

theorem probeAsk_stateless (pr : MapPrologue) (n : Nat) {p : σ → Bytes → Ordering × σ}
    {pred : Bytes → Ordering} (hp : ∀ s k, (p s k).1 = pred k) (hint : Option Nat) (s : σ) :
    ((probeAsk pr n hint).run p s).1 = probe pr n hint pred := by
  unfold probeAsk probe
  cases hint with
  | none => rfl
  | some h =>
    simp only
    cases pr.entryRanges n h with
    | ok o =>
      cases o with
      | none => rfl
      | some q =>
        obtain ⟨⟨ks, ke⟩, vs, ve⟩ := q
        simp only [Res.ok_bind]
        cases getR pr.keys ks ke with
        | none => rfl
        | some key =>
          simp only [Ask.run, hp]
          by_cases he : pred key = .eq
          · simp only [if_pos he]
            cases getR pr.vals vs ve <;> rfl
          · simp only [if_neg he]; rfl
    | err e => rfl
    | panic => rfl

theorem probeAsk_valid {pr : MapPrologue} {n : Nat} (hv : pr.Valid n) (h : Nat) (hh : h < n) :
    probeAsk pr n (some h) = .ask (pr.key n h) fun o =>
      if o = .eq then .done (.ok (some (pr.val n h, h))) else .done (.ok none) := by
  unfold probeAsk
  simp only [MapPrologue.entryRanges_eq hv.table, if_pos hh, hv.getK hh, hv.getV hh]

theorem probeAsk_out {pr : MapPrologue} {n : Nat} (hint : Option Nat)
    (hh : ∀ h, hint = some h → n ≤ h) : probeAsk pr n hint = .done (.ok none) := by
  unfold probeAsk
  cases hint with
  | none => rfl
  | some h =>
    have : pr.entryRanges n h = .ok none := by
      unfold MapPrologue.entryRanges
      rw [if_pos (hh h rfl)]
    simp only [this]

/-- The hint probe calls the closure at most once. -/
theorem probeAsk_calls (pr : MapPrologue) (n : Nat) (p : σ → Bytes → Ordering × σ)
    (hint : Option Nat) (s : σ) : ((probeAsk pr n hint).calls p s).length ≤ 1 := by
  unfold probeAsk
  split
  · exact Nat.zero_le _
  · split
    · exact Nat.zero_le _
    · split
      · exact Nat.zero_le _
      · rename_i key _
        simp only [Ask.calls]
        by_cases ho : (p s key).1 = .eq
        · rw [if_pos ho]; split <;> exact Nat.le_refl _
        · rw [if_neg ho]; exact Nat.le_refl _
    · exact Nat.zero_le _
    · exact Nat.zero_le _

end IndexedMapWalker

namespace MapWalker

theorem findAsk_stateless (key : Rd κ) (kskip vskip : Rd Unit) {p : σ → κ → Ordering × σ}
    {pred : κ → Ordering} (hp : ∀ s k, (p s k).1 = pred k) (n : Nat) (s : Bytes) (st : σ) :
    ((findAsk key kskip vskip n s).run p st).1 = findLoop key kskip vskip pred n s := by
  induction n generalizing s st with
  | zero => rfl
  | succ n ih =>
    rw [findAsk, findLoop, Rd.bind_run]
    cases key s with
    | ok q =>
      obtain ⟨k, s⟩ := q
      simp only [Ask.run, hp]
      cases pred k with
      | lt =>
        simp only [Rd.bind_run]
        cases vskip s with
        | ok q => exact ih _ _
        | err e => rfl
        | panic => rfl
      | eq => rfl
      | gt => rfl
    | err e => rfl
    | panic => rfl

/-- The linear search with any closure, over any decodable entries. -/
theorem findAsk_readN {key : Rd κ'} {view : κ → κ'} {k : Codec κ} {v : Codec α}
    (hkey : ∀ s a r, k.dec s = .ok (a, r) → key s = .ok (view a, r))
    (hk : k.dec.Agree k.skip) (hv : v.dec.Agree v.skip)
    (p : σ → κ' → Ordering × σ) {n : Nat} {s r : Bytes} {l : List (κ × α)}
    (h : Rd.readN n (pairC k v).dec s = .ok (l, r)) (st : σ) :
    ∃ st', (∃ pre e post r1 r2, l = pre ++ e :: post ∧
        (findAsk key k.skip v.skip n s).calls p st =
          pre.map (fun a => (view a.1, .lt)) ++ [(view e.1, .eq)] ∧
        (findAsk key k.skip v.skip n s).run p st = (.ok (true, r1), st') ∧
        v.dec r1 = .ok (e.2, r2) ∧ Rd.readN post.length (pairC k v).dec r2 = .ok (post, r)) ∨
      (∃ pre e post, l = pre ++ e :: post ∧
        (findAsk key k.skip v.skip n s).calls p st =
          pre.map (fun a => (view a.1, .lt)) ++ [(view e.1, .gt)] ∧
        (findAsk key k.skip v.skip n s).run p st = (.ok (false, r), st')) ∨
      ((findAsk key k.skip v.skip n s).calls p st = (l.map fun a => (view a.1, .lt)) ∧
        (findAsk key k.skip v.skip n s).run p st = (.ok (false, r), st')) := by
  induction n generalizing s l st with
  | zero =>
    simp [Rd.readN] at h
    obtain ⟨rfl, rfl⟩ := h
    exact ⟨st, .inr (.inr ⟨rfl, rfl⟩)⟩
  | succ n ih =>
    obtain ⟨e, l', r1, rfl, h1, h2⟩ := readN_succ_ok h
    obtain ⟨r0, hke, hve⟩ := pairC_dec_ok h1
    obtain ⟨u, hvs⟩ := hv _ _ _ hve
    cases u
    have e0 : ∀ o, (p st (view e.1)).1 = o → (findAsk key k.skip v.skip (n + 1) s).run p st =
        (match o with
          | .lt => (findAsk key k.skip v.skip n r1).run p (p st (view e.1)).2
          | .eq => (.ok (true, r0), (p st (view e.1)).2)
          | .gt => ((do
              v.skip
              Rd.repeatN n (do k.skip; v.skip)
              pure false : Rd Bool) r0, (p st (view e.1)).2)) := by
      intro o ho
      rw [findAsk, hkey _ _ _ hke]
      simp only [Ask.run, ho]
      cases o with
      | lt => simp only [hvs]
      | eq => rfl
      | gt => rfl
    have c0 : ∀ o, (p st (view e.1)).1 = o → (findAsk key k.skip v.skip (n + 1) s).calls p st =
        (view e.1, o) :: (match o with
          | .lt => (findAsk key k.skip v.skip n r1).calls p (p st (view e.1)).2
          | .eq => []
          | .gt => []) := by
      intro o ho
      rw [findAsk, hkey _ _ _ hke]
      simp only [Ask.calls, ho]
      cases o with
      | lt => simp only [hvs]
      | eq => rfl
      | gt => rfl
    cases ho : (p st (view e.1)).1 with
    | lt =>
      have e1 := e0 _ ho
      have c1 := c0 _ ho
      obtain ⟨st', hc⟩ := ih h2 (p st (view e.1)).2
      refine ⟨st', ?_⟩
      rw [e1, c1]
      rcases hc with ⟨pre, e', post, q1, q2, rfl, a1, a2, a3, a4⟩ | ⟨pre, e', post, rfl, a1, a2⟩ | ⟨a1, a2⟩
      · exact .inl ⟨e :: pre, e', post, q1, q2, rfl, congrArg (_ :: ·) a1, a2, a3, a4⟩
      · exact .inr (.inl ⟨e :: pre, e', post, rfl, congrArg (_ :: ·) a1, a2⟩)
      · exact .inr (.inr ⟨congrArg (_ :: ·) a1, a2⟩)
    | eq =>
      refine ⟨_, .inl ⟨[], e, l', r0, r1, rfl, c0 _ ho, e0 _ ho, hve, ?_⟩⟩
      rw [readN_length h2]
      exact h2
    | gt =>
      refine ⟨(p st (view e.1)).2, .inr (.inl ⟨[], e, l', rfl, c0 _ ho, ?_⟩)⟩
      rw [e0 _ ho]
      simp only
      rw [Rd.bind_of_ok hvs]
      have hag : (pairC k v).dec.Agree (do k.skip; v.skip) :=
        Rd.Agree.bind hk fun _ _ => Rd.Agree.bind_pure_left hv
      obtain ⟨_, hx⟩ := Rd.Agree.readN hag n _ _ _ h2
      rw [Rd.bind_of_ok hx]
      rfl

end MapWalker

end Revision
