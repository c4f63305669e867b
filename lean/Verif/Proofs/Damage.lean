import Verif.Proofs.MapWalk

/-! Helper lemmas: payloads that differ in one stretch. -/

namespace Revision

theorem slice_before {a x c : Bytes} {i j : Nat} (h : j ≤ a.length) :
    slice (a ++ x ++ c) i j = slice a i j := by
  unfold slice
  rw [List.append_assoc, List.take_append_of_le_length h]

theorem slice_behind {a x c : Bytes} {i j : Nat} (h : a.length + x.length ≤ i) :
    slice (a ++ x ++ c) i j = slice c (i - (a.length + x.length)) (j - (a.length + x.length)) := by
  unfold slice
  rw [List.take_append, List.drop_append, List.length_append]
  have e : ((a ++ x).take j).drop i = [] := by
    apply List.drop_eq_nil_of_le
    rw [List.length_take, List.length_append]; omega
  rw [e, List.nil_append, List.length_take, List.length_append]
  by_cases hj : a.length + x.length ≤ j
  · rw [Nat.min_eq_right hj]
  · have : j - (a.length + x.length) = 0 := by omega
    rw [this]; simp

theorem slice_here {a x c : Bytes} : slice (a ++ x ++ c) a.length (a.length + x.length) = x := by
  rw [List.append_assoc]; exact slice_append_mid a x c rfl rfl

/-- Slices clear of the stretch are unaffected by what is in it. -/
theorem slice_clear {a x y c : Bytes} (hxy : y.length = x.length) {i j : Nat}
    (h : j ≤ a.length ∨ a.length + x.length ≤ i) :
    slice (a ++ y ++ c) i j = slice (a ++ x ++ c) i j := by
  cases h with
  | inl h => rw [slice_before h, slice_before h]
  | inr h => rw [slice_behind (by omega), slice_behind (by omega), hxy]

theorem u32At_clear {a x y c : Bytes} (hxy : y.length = x.length) {i : Nat}
    (h : i + 4 ≤ a.length) : u32At (a ++ y ++ c) i = u32At (a ++ x ++ c) i := by
  unfold u32At; rw [slice_clear hxy (.inl h)]

theorem mid_length {a x y c : Bytes} (hxy : y.length = x.length) :
    (a ++ y ++ c).length = (a ++ x ++ c).length := by
  simp only [List.length_append]; omega

/-- Any stretch of a payload can be singled out. -/
theorem slice_split {p : Bytes} {i j : Nat} (h : i ≤ j) (hj : j ≤ p.length) :
    p = p.take i ++ slice p i j ++ p.drop j := by
  rw [List.append_assoc, ← slice_of_drop h hj rfl, List.take_append_drop]

theorem slice_slice {p : Bytes} {a b i j : Nat} (h : a + j ≤ b) :
    slice (slice p a b) i j = slice p (a + i) (a + j) := by
  unfold slice
  rw [List.take_drop, List.take_take, List.drop_drop, Nat.min_eq_left h]

theorem sliceVarint_clear {s t : Bytes} {n k : Nat} (h : sliceVarint s = .ok (n, k))
    (hst : t.take k = s.take k) (hl : t.length = s.length) : sliceVarint t = .ok (n, k) := by
  obtain ⟨_, h1, _, h3⟩ := sliceVarint_ok h
  cases s with
  | nil => cases h
  | cons tag s =>
    cases t with
    | nil => simp at hl
    | cons tag' t =>
      have e : tag' = tag := by
        cases k with
        | zero => omega
        | succ k => simp only [List.take_succ_cons, List.cons.injEq] at hst; exact hst.1
      subst e
      unfold sliceVarint at h ⊢
      simp only at h ⊢
      split at h
      · rw [if_pos (by assumption)]; exact h
      · rw [if_neg (by assumption)]
        split at h
        · rw [if_pos (by assumption), hl]
          split at h
          · cases h
          · rw [if_neg (by assumption)]
            simp only [Res.ok.injEq, Prod.mk.injEq] at h ⊢
            obtain ⟨h, rfl⟩ := h
            rw [hst]; exact ⟨h, rfl⟩
        · rw [if_neg (by assumption)]
          split at h
          · rw [if_pos (by assumption), hl]
            split at h
            · cases h
            · rw [if_neg (by assumption)]
              simp only [Res.ok.injEq, Prod.mk.injEq] at h ⊢
              obtain ⟨h, rfl⟩ := h
              rw [hst]; exact ⟨h, rfl⟩
          · rw [if_neg (by assumption)]
            split at h
            · rw [if_pos (by assumption), hl]
              split at h
              · cases h
              · rw [if_neg (by assumption)]
                simp only [Res.ok.injEq, Prod.mk.injEq] at h ⊢
                obtain ⟨h, rfl⟩ := h
                rw [hst]; exact ⟨h, rfl⟩
            · cases h

theorem slice_prefix {p q : Bytes} {m i j : Nat} (h : q.take m = p.take m) (hj : j ≤ m) :
    slice q i j = slice p i j := by
  unfold slice
  have : q.take j = p.take j := by
    have := congrArg (List.take j) h
    rwa [List.take_take, List.take_take, Nat.min_eq_left hj] at this
  rw [this]

theorem u32At_prefix {p q : Bytes} {m i : Nat} (h : q.take m = p.take m) (hj : i + 4 ≤ m) :
    u32At q i = u32At p i := by
  unfold u32At; rw [slice_prefix h hj]

/-- The head of an accepted indexed sequence decides how its payload is read: a payload of the same
length with the same head is accepted, with the same table. -/
theorem seq_head {p : Bytes} {w : IndexedSeqWalker} {o : Bytes}
    (h : IndexedSeqWalker.fromPayload p = .ok w) (ho : w.offsets = some o) :
    ∃ te, te ≤ p.length ∧ w.body = p.drop te ∧ ∀ q : Bytes, q.length = p.length → q.take te = p.take te →
      IndexedSeqWalker.fromPayload q = .ok ⟨q.drop te, some o, w.len⟩ := by
  unfold IndexedSeqWalker.fromPayload IndexedSeqWalker.fromPayloadInner at h
  cases p with
  | nil => cases h
  | cons flags rest =>
    simp only at h
    cases hv : sliceVarint rest with
    | err e => rw [hv] at h; cases h
    | panic => rw [hv] at h; cases h
    | ok x =>
      obtain ⟨len, k⟩ := x
      obtain ⟨hn, hk1, hk2, hk3⟩ := sliceVarint_ok hv
      rw [hv, Res.ok_bind] at h
      by_cases hf : flags &&& 1 = 0
      · simp only [if_pos hf] at h
        injection h with h; subst h; cases ho
      simp only [if_neg hf] at h
      obtain ⟨tb, h1, h⟩ := Res.bind_eq_ok.1 h
      obtain ⟨te, h2, h⟩ := Res.bind_eq_ok.1 h
      have hte : te = 1 + k + tb := by
        unfold addU at h2; split at h2
        · injection h2 with h2; exact h2.symm
        · cases h2
      split at h
      · cases h
      rename_i hlen
      obtain ⟨o', h3, h⟩ := Res.bind_eq_ok.1 h
      obtain ⟨u, h4, h⟩ := Res.bind_eq_ok.1 h
      injection h with h
      subst h
      injection ho with ho
      subst ho
      refine ⟨te, by omega, rfl, fun q hq hqt => ?_⟩
      cases q with
      | nil => simp at hq
      | cons flags' rest' =>
        have hte' : te = te - 1 + 1 := by omega
        have hqt' := hqt
        rw [hte', List.take_succ_cons, List.take_succ_cons, List.cons.injEq] at hqt'
        obtain ⟨rfl, hr⟩ := hqt'
        have hv' : sliceVarint rest' = .ok (len, k) := by
          refine sliceVarint_clear hv ?_ (by simpa using hq)
          have := congrArg (List.take k) hr
          rwa [List.take_take, List.take_take, Nat.min_eq_left (by omega)] at this
        unfold IndexedSeqWalker.fromPayload IndexedSeqWalker.fromPayloadInner
        simp only
        rw [hv', Res.ok_bind]
        simp only [if_neg hf]
        rw [h1, Res.ok_bind, h2, Res.ok_bind, if_neg (by rw [hq]; exact hlen)]
        obtain ⟨s1, s2, s3⟩ := sliceR_eq_ok.1 h3
        have : sliceR (flags' :: rest') (1 + k) te = .ok o' := by
          rw [sliceR_eq_ok]
          exact ⟨s1, by rw [hq]; exact s2, by rw [s3, slice_prefix hqt (Nat.le_refl _)]⟩
        rw [this, Res.ok_bind]
        have e : ((flags' :: rest').drop te).length = ((flags' :: rest).drop te).length := by
          simp only [List.length_drop, hq]
        rw [e, h4, Res.ok_bind]
        rfl

/-- The head of an accepted indexed map decides how its payload is read: over a payload of the same
length with the same head only the order of the keys remains to be checked. -/
theorem map_head {p : Bytes} (hp : p.length < 2 ^ 63) {w : IndexedMapWalker} {pr : MapPrologue}
    (h : IndexedMapWalker.fromPayload p = .ok w) (hpr : w.prologue = some pr) :
    ∃ L, L + pr.keys.length + pr.vals.length ≤ p.length ∧
      pr.keys = slice p L (L + pr.keys.length) ∧
      pr.vals = slice p (L + pr.keys.length) (L + pr.keys.length + pr.vals.length) ∧
      ∀ q : Bytes, q.length = p.length → q.take L = p.take L → ∃ b,
      IndexedMapWalker.fromPayload q = (do
        validateKeyRegionAscending (slice q L (L + pr.keys.length)) pr.table w.len
        .ok ⟨b, some ⟨pr.table, slice q L (L + pr.keys.length),
          slice q (L + pr.keys.length) (L + pr.keys.length + pr.vals.length)⟩, w.len⟩) := by
  unfold IndexedMapWalker.fromPayload IndexedMapWalker.fromPayloadInner at h
  cases p with
  | nil => cases h
  | cons flags rest =>
    simp only at h
    cases hv : sliceVarint rest with
    | err e => rw [hv] at h; cases h
    | panic => rw [hv] at h; cases h
    | ok x =>
      obtain ⟨len, k⟩ := x
      obtain ⟨hn, hk1, hk2, hk3⟩ := sliceVarint_ok hv
      rw [hv, Res.ok_bind] at h
      by_cases hf : flags &&& 1 = 0
      · simp only [if_pos hf] at h
        injection h with h; subst h; cases hpr
      simp only [if_neg hf] at h
      have addU_eq : ∀ {a b c : Nat}, addU a b = .ok c → c = a + b := by
        intro a b c h2
        unfold addU at h2; split at h2
        · injection h2 with h2; exact h2.symm
        · cases h2
      obtain ⟨tb, h1, h⟩ := Res.bind_eq_ok.1 h
      obtain ⟨te, h2, h⟩ := Res.bind_eq_ok.1 h
      have hte := addU_eq h2
      split at h
      · cases h
      rename_i hlen
      obtain ⟨T, h3, h⟩ := Res.bind_eq_ok.1 h
      obtain ⟨L, h4, h⟩ := Res.bind_eq_ok.1 h
      have hL := addU_eq h4
      split at h
      · cases h
      rename_i hlen2
      obtain ⟨kl, h5, h⟩ := Res.bind_eq_ok.1 h
      obtain ⟨vl, h6, h⟩ := Res.bind_eq_ok.1 h
      obtain ⟨ke, h7, h⟩ := Res.bind_eq_ok.1 h
      obtain ⟨ve, h8, h⟩ := Res.bind_eq_ok.1 h
      have hke := addU_eq h7
      have hve := addU_eq h8
      split at h
      · cases h
      rename_i hlen3
      obtain ⟨ks, h9, h⟩ := Res.bind_eq_ok.1 h
      obtain ⟨vs, h10, h⟩ := Res.bind_eq_ok.1 h
      simp only [if_true] at h
      obtain ⟨u, h11, h⟩ := Res.bind_eq_ok.1 h
      obtain ⟨u', h12, h⟩ := Res.bind_eq_ok.1 h
      injection h with h
      subst h
      injection hpr with hpr
      subst hpr
      obtain ⟨_, _, ek⟩ := sliceR_eq_ok.1 h9
      obtain ⟨_, _, ev⟩ := sliceR_eq_ok.1 h10
      have lk : ks.length = kl := by rw [ek, slice_length (by omega) (by omega)]; omega
      have lv : vs.length = vl := by rw [ev, slice_length (by omega) (by omega)]; omega
      simp only [lk, lv]
      subst hke
      subst hve
      refine ⟨L, by omega, ek, ev, fun q hq hqt => ?_⟩
      cases q with
      | nil => simp at hq
      | cons flags' rest' =>
        have hte' : L = L - 1 + 1 := by omega
        have hqt' := hqt
        rw [hte', List.take_succ_cons, List.take_succ_cons, List.cons.injEq] at hqt'
        obtain ⟨rfl, hr⟩ := hqt'
        have hv' : sliceVarint rest' = .ok (len, k) := by
          refine sliceVarint_clear hv ?_ (by simpa using hq)
          have := congrArg (List.take k) hr
          rwa [List.take_take, List.take_take, Nat.min_eq_left (by omega)] at this
        refine ⟨(flags' :: rest').drop (1 + k), ?_⟩
        unfold IndexedMapWalker.fromPayload IndexedMapWalker.fromPayloadInner
        simp only
        rw [hv', Res.ok_bind]
        simp only [if_neg hf]
        rw [h1, Res.ok_bind, h2, Res.ok_bind, if_neg (by rw [hq]; exact hlen)]
        obtain ⟨s1, s2, s3⟩ := sliceR_eq_ok.1 h3
        have : sliceR (flags' :: rest') (1 + k) te = .ok T := by
          rw [sliceR_eq_ok]
          exact ⟨s1, by rw [hq]; exact s2, by rw [s3, slice_prefix hqt (by omega)]⟩
        rw [this, Res.ok_bind, h4, Res.ok_bind, if_neg (by rw [hq]; exact hlen2)]
        have d1 : decodeU32At (flags' :: rest') te = .ok kl := by
          rw [← h5, decodeU32At_ok (by omega), decodeU32At_ok (by omega),
            u32At_prefix hqt (by omega)]
        have d2 : decodeU32At (flags' :: rest') (te + 4) = .ok vl := by
          rw [← h6, decodeU32At_ok (by omega), decodeU32At_ok (by omega),
            u32At_prefix hqt (by omega)]
        rw [d1, Res.ok_bind, d2, Res.ok_bind, h7, Res.ok_bind, h8, Res.ok_bind,
          if_neg (by rw [hq]; exact hlen3), sliceR_ok (by omega) (by omega), Res.ok_bind,
          sliceR_ok (by omega) (by omega), Res.ok_bind]
        simp only [if_true]
        rw [h11]; rfl

theorem ascLoop_err {keys table : Bytes} {count : Nat} {e : Err} : ∀ n i a b,
    ascLoop keys table count n i a b = .err e → e = .keysNotAscending := by
  have sl : ∀ {x : Bytes} {i j : Nat} {e : Err}, sliceR x i j ≠ .err e := by
    intro x i j e h; unfold sliceR at h; split at h <;> cases h
  have du : ∀ {x : Bytes} {i : Nat} {e : Err}, decodeU32At x i ≠ .err e := by
    intro x i e h
    by_cases hl : i + 4 ≤ x.length
    · rw [decodeU32At_ok hl] at h; cases h
    · rw [decodeU32At_panic hl] at h; cases h
  intro n
  induction n with
  | zero => intro i a b h; cases h
  | succ n ih =>
    intro i a b h
    rw [ascLoop] at h
    have tail : ∀ ce, (do
        let prev ← sliceR keys a b
        let curr ← sliceR keys b ce
        if (cmpBytes curr prev).isLE = true then Res.err Err.keysNotAscending
          else ascLoop keys table count n (i + 1) b ce) = .err e → e = .keysNotAscending := by
      intro ce h
      cases h2 : sliceR keys a b with
      | err e' => exact absurd h2 sl
      | panic => rw [h2] at h; cases h
      | ok pv =>
        rw [h2, Res.ok_bind] at h
        cases h3 : sliceR keys b ce with
        | err e' => exact absurd h3 sl
        | panic => rw [h3] at h; cases h
        | ok cv =>
          rw [h3, Res.ok_bind] at h
          split at h
          · injection h with h; exact h.symm
          · exact ih _ _ _ h
    split at h
    · cases h1 : decodeU32At table ((i + 1) * 8) with
      | err e' => exact absurd h1 du
      | panic => rw [h1] at h; cases h
      | ok ce => rw [h1, Res.ok_bind] at h; exact tail ce h
    · exact tail _ h

theorem validateKeyRegionAscending_err {keys table : Bytes} {count : Nat} {e : Err}
    (h : validateKeyRegionAscending keys table count = .err e) : e = .keysNotAscending := by
  unfold validateKeyRegionAscending at h
  split at h
  · cases h
  · cases h1 : decodeU32At table 0 with
    | err e' =>
      by_cases hl : 0 + 4 ≤ table.length
      · rw [decodeU32At_ok hl] at h1; cases h1
      · rw [decodeU32At_panic hl] at h1; cases h1
    | panic => rw [h1] at h; cases h
    | ok a =>
      rw [h1, Res.ok_bind] at h
      cases h2 : decodeU32At table 8 with
      | err e' =>
        by_cases hl : 8 + 4 ≤ table.length
        · rw [decodeU32At_ok hl] at h2; cases h2
        · rw [decodeU32At_panic hl] at h2; cases h2
      | panic => rw [h2] at h; cases h
      | ok b =>
        rw [h2, Res.ok_bind] at h
        exact ascLoop_err _ _ _ _ h

end Revision
