import Verif.Proofs.MapWalk
import Verif.Proofs.Coll

/-! Helper lemmas: encoding and decoding of indexed collections. -/

namespace Revision

/-! ### Lengths -/

theorem writeVarint_cases (n : Nat) (h : n < 2 ^ 64) :
    (n ≤ 250 ∧ writeVarint n = [UInt8.ofNat n]) ∨
    (n < 2 ^ 16 ∧ writeVarint n = 251 :: leBytes 2 n) ∨
    (n < 2 ^ 32 ∧ writeVarint n = 252 :: leBytes 4 n) ∨
    writeVarint n = 253 :: leBytes 8 n := by
  unfold writeVarint
  by_cases h1 : n ≤ 250
  · rw [if_pos h1]; exact .inl ⟨h1, rfl⟩
  · rw [if_neg h1]
    by_cases h2 : n ≤ 2 ^ 16 - 1
    · rw [if_pos h2]; exact .inr (.inl ⟨by omega, rfl⟩)
    · rw [if_neg h2]
      by_cases h3 : n ≤ 2 ^ 32 - 1
      · rw [if_pos h3]; exact .inr (.inr (.inl ⟨by omega, rfl⟩))
      · rw [if_neg h3]; exact .inr (.inr (.inr rfl))

theorem readVarint_write (n : Nat) (h : n < 2 ^ 64) (t : Bytes) :
    readVarint (writeVarint n ++ t) = .ok (n, t) := by
  have lv : ∀ m, n < 256 ^ m → leVal (leBytes m n) = n := fun m hm => by
    rw [leVal_leBytes]; exact Nat.mod_eq_of_lt hm
  rcases writeVarint_cases n h with ⟨h1, e⟩ | ⟨h1, e⟩ | ⟨h1, e⟩ | e
  · rw [e, List.singleton_append]
    unfold readVarint
    rw [Rd.bind_of_ok (Rd.readByte_cons _ _)]
    have hn : (UInt8.ofNat n).toNat = n := by simp; omega
    have : (UInt8.ofNat n) ≤ 250 := by
      rw [UInt8.le_iff_toNat_le, hn]; exact h1
    rw [if_pos this, hn]; rfl
  all_goals
    rw [e, List.cons_append]
    unfold readVarint
    rw [Rd.bind_of_ok (Rd.readByte_cons _ _)]
    rw [if_neg (by decide)]
  · rw [if_pos rfl, Rd.bind_of_ok (Rd.readExact_append _ _ 2 (leBytes_length _ _)), lv 2 (by omega)]
    rfl
  · rw [if_neg (by decide), if_pos rfl,
      Rd.bind_of_ok (Rd.readExact_append _ _ 4 (leBytes_length _ _)), lv 4 (by omega)]
    rfl
  · rw [if_neg (by decide), if_neg (by decide), if_pos rfl,
      Rd.bind_of_ok (Rd.readExact_append _ _ 8 (leBytes_length _ _)), lv 8 (by omega)]
    rfl

theorem sliceVarint_write (n : Nat) (h : n < 2 ^ 64) (t : Bytes) :
    sliceVarint (writeVarint n ++ t) = .ok (n, (writeVarint n).length) := by
  have lv : ∀ m, n < 256 ^ m → leVal (leBytes m n) = n := fun m hm => by
    rw [leVal_leBytes]; exact Nat.mod_eq_of_lt hm
  have cut : ∀ (x : UInt8) m, (List.drop 1 (List.take (m + 1) (x :: (leBytes m n ++ t)))) = leBytes m n := by
    intro x m
    rw [List.take_succ_cons, List.drop_one, List.tail_cons]
    have := leBytes_length m n
    rw [List.take_append_of_le_length (by omega), List.take_of_length_le (by omega)]
  rcases writeVarint_cases n h with ⟨h1, e⟩ | ⟨h1, e⟩ | ⟨h1, e⟩ | e
  · rw [e, List.singleton_append]
    have hn : (UInt8.ofNat n).toNat = n := by simp; omega
    have : (UInt8.ofNat n) ≤ 250 := by
      rw [UInt8.le_iff_toNat_le, hn]; exact h1
    simp only [sliceVarint]
    rw [if_pos this, hn]; rfl
  all_goals
    rw [e, List.cons_append]
    simp only [sliceVarint]
    rw [if_neg (by decide)]
  · rw [if_pos trivial, if_neg (by simp [leBytes_length]), cut, lv 2 (by omega)]
    simp [leBytes_length]
  · rw [if_neg (by decide), if_pos trivial, if_neg (by simp [leBytes_length]), cut, lv 4 (by omega)]
    simp [leBytes_length]
  · rw [if_neg (by decide), if_neg (by decide), if_pos trivial, if_neg (by simp [leBytes_length]), cut,
      lv 8 (by omega)]
    simp [leBytes_length]

theorem writeVarint_length (n : Nat) : (writeVarint n).length ≤ 9 := by
  unfold writeVarint; repeat' split
  all_goals simp [leBytes_length]

/-! ### Bodies -/

theorem encEach_cons {f : α → Res β} {a : α} {l : List α} {bs : List β} :
    encEach f (a :: l) = .ok bs ↔ ∃ b bs', bs = b :: bs' ∧ f a = .ok b ∧ encEach f l = .ok bs' := by
  simp only [encEach, Res.bind_eq_ok, Res.pure_def, Res.ok.injEq]
  constructor
  · rintro ⟨b, hb, bs', hbs, rfl⟩; exact ⟨b, bs', rfl, hb, hbs⟩
  · rintro ⟨b, bs', rfl, hb, hbs⟩; exact ⟨b, hb, bs', hbs, rfl⟩

theorem encEach_length {f : α → Res β} {l : List α} : ∀ {bs}, encEach f l = .ok bs →
    bs.length = l.length := by
  induction l with
  | nil => intro bs h; injection h with h; subst h; rfl
  | cons a l ih =>
    intro bs h
    obtain ⟨b, bs', rfl, _, hbs⟩ := encEach_cons.1 h
    simp [ih hbs]

theorem encEach_get {f : α → Res β} {l : List α} : ∀ {bs}, encEach f l = .ok bs →
    ∀ i (h1 : i < l.length) (h2 : i < bs.length), f l[i] = .ok bs[i] := by
  induction l with
  | nil => intro bs _ i h; simp at h
  | cons a l ih =>
    intro bs h i h1 h2
    obtain ⟨b, bs', rfl, hb, hbs⟩ := encEach_cons.1 h
    cases i with
    | zero => exact hb
    | succ i => exact ih hbs i (by simpa using h1) (by simpa using h2)

theorem encEach_mem {f : α → Res β} {l : List α} {bs} (h : encEach f l = .ok bs) :
    ∀ b, b ∈ bs ↔ ∃ a ∈ l, f a = .ok b := by
  induction l generalizing bs with
  | nil => injection h with h; subst h; simp
  | cons a l ih =>
    obtain ⟨x, bs', rfl, hb, hbs⟩ := encEach_cons.1 h
    intro b
    rw [List.mem_cons, ih hbs]
    constructor
    · rintro (rfl | ⟨c, hc, e⟩)
      · exact ⟨a, by simp, hb⟩
      · exact ⟨c, by simp [hc], e⟩
    · rintro ⟨c, hc, e⟩
      rcases List.mem_cons.1 hc with rfl | hc
      · rw [hb] at e; injection e with e; exact .inl e.symm
      · exact .inr ⟨c, hc, e⟩

theorem encEach_ok {f : α → Res β} {l : List α} (h : ∀ a ∈ l, ∃ b, f a = .ok b) :
    ∃ bs, encEach f l = .ok bs := by
  induction l with
  | nil => exact ⟨[], rfl⟩
  | cons a l ih =>
    obtain ⟨x, hx⟩ := h a (by simp)
    obtain ⟨y, hy⟩ := ih fun a ha => h a (by simp [ha])
    exact ⟨x :: y, encEach_cons.2 ⟨x, y, rfl, hx, hy⟩⟩

/-- Reordering the results reorders the items. -/
theorem encEach_perm {f : α → Res β} {bs bs' : List β} (hp : bs.Perm bs') : ∀ {l : List α},
    encEach f l = .ok bs → ∃ l' : List α, l.Perm l' ∧ encEach f l' = .ok bs' := by
  induction hp with
  | nil => intro l h; exact ⟨l, .refl _, h⟩
  | cons x _ ih =>
    intro l h
    cases l with
    | nil => cases h
    | cons a l =>
      obtain ⟨b, bs', e, hb, hbs⟩ := encEach_cons.1 h
      injection e with e1 e2; subst e1; subst e2
      obtain ⟨l', hl, he⟩ := ih hbs
      exact ⟨a :: l', .cons a hl, encEach_cons.2 ⟨_, _, rfl, hb, he⟩⟩
  | swap x y l0 =>
    intro l h
    cases l with
    | nil => cases h
    | cons a l =>
      obtain ⟨b, bs', e, hb, hbs⟩ := encEach_cons.1 h
      injection e with e1 e2; subst e1; subst e2
      cases l with
      | nil => cases hbs
      | cons c l =>
        obtain ⟨d, bs', e, hd, hbs⟩ := encEach_cons.1 hbs
        injection e with e1 e2; subst e1; subst e2
        exact ⟨c :: a :: l, .swap _ _ _,
          encEach_cons.2 ⟨_, _, rfl, hd, encEach_cons.2 ⟨_, _, rfl, hb, hbs⟩⟩⟩
  | trans _ _ ih1 ih2 =>
    intro l h
    obtain ⟨l1, p1, h1⟩ := ih1 h
    obtain ⟨l2, p2, h2⟩ := ih2 h1
    exact ⟨l2, p1.trans p2, h2⟩

/-- Reordering the items reorders the results. -/
theorem encEach_perm' {f : α → Res β} {l l' : List α} (hp : l.Perm l') : ∀ {bs : List β},
    encEach f l = .ok bs → ∃ bs', bs.Perm bs' ∧ encEach f l' = .ok bs' := by
  induction hp with
  | nil => intro bs h; exact ⟨bs, .refl _, h⟩
  | cons x _ ih =>
    intro bs h
    obtain ⟨b, bs', rfl, hb, hbs⟩ := encEach_cons.1 h
    obtain ⟨bs2, hl, he⟩ := ih hbs
    exact ⟨b :: bs2, .cons b hl, encEach_cons.2 ⟨_, _, rfl, hb, he⟩⟩
  | swap x y l0 =>
    intro bs h
    obtain ⟨b, bs', rfl, hb, hbs⟩ := encEach_cons.1 h
    obtain ⟨d, bs', rfl, hd, hbs⟩ := encEach_cons.1 hbs
    exact ⟨d :: b :: bs', .swap _ _ _,
      encEach_cons.2 ⟨_, _, rfl, hd, encEach_cons.2 ⟨_, _, rfl, hb, hbs⟩⟩⟩
  | trans _ _ ih1 ih2 =>
    intro l h
    obtain ⟨l1, p1, h1⟩ := ih1 h
    obtain ⟨l2, p2, h2⟩ := ih2 h1
    exact ⟨l2, p1.trans p2, h2⟩

theorem readN_each {m : Rd α} {f : α → Res Bytes} {l : List α}
    (hrt : ∀ a ∈ l, ∀ b, f a = .ok b → ∀ t, m (b ++ t) = .ok (a, t)) :
    ∀ {bs}, encEach f l = .ok bs → ∀ t, Rd.readN l.length m (bs.flatten ++ t) = .ok (l, t) := by
  induction l with
  | nil => intro bs h t; injection h with h; subst h; rfl
  | cons a l ih =>
    intro bs h t
    obtain ⟨b, bs', rfl, hb, hbs⟩ := encEach_cons.1 h
    simp only [List.length_cons, Rd.readN, List.flatten_cons]
    rw [List.append_assoc, Rd.bind_of_ok (hrt a (by simp) b hb _),
      Rd.bind_of_ok (ih (fun a ha => hrt a (by simp [ha])) hbs t)]
    rfl

theorem Lands.ok {w : Bool} {x : Res (Unit × Bytes)} {t : Bytes} (h : x = .ok ((), t)) : Lands w x t := .inl h

theorem Lands.strict {x : Res (Unit × Bytes)} {t : Bytes} (h : Lands false x t) : x = .ok ((), t) :=
  h.elim id fun h => nomatch h.1

theorem Lands.bind {w : Bool} {m : Rd Unit} {f : Unit → Rd Unit} {s r t : Bytes} (h : Lands w (m s) r)
    (h' : Lands w (f () r) t) : Lands w ((m >>= f) s) t := by
  rcases h with h | ⟨hw, h⟩
  · rwa [Rd.bind_of_ok h]
  · exact .inr ⟨hw, fun a e => by obtain ⟨_, _, e, _⟩ := Rd.bind_ok.1 e; exact h _ e⟩

theorem repeatN_lands {m : Rd Unit} {f : α → Res Bytes} {l : List α}
    (hrt : ∀ a ∈ l, ∀ b, f a = .ok b → ∀ t, Lands w (m (b ++ t)) t) :
    ∀ {bs}, encEach f l = .ok bs → ∀ t, Lands w (Rd.repeatN l.length m (bs.flatten ++ t)) t := by
  induction l with
  | nil => intro bs h t; injection h with h; subst h; exact .ok rfl
  | cons a l ih =>
    intro bs h t
    obtain ⟨b, bs', rfl, hb, hbs⟩ := encEach_cons.1 h
    simp only [List.length_cons, Rd.repeatN, List.flatten_cons]
    rw [List.append_assoc]
    exact (hrt a (by simp) b hb _).bind (ih (fun a ha => hrt a (by simp [ha])) hbs t)

/-! ### Offsets -/

theorem seqOffsets_length : ∀ {bs : List Bytes} {off os last},
    seqOffsets off bs = .ok (os, last) → os.length = bs.length := by
  intro bs
  induction bs with
  | nil => intro off os last h; simp only [seqOffsets, Res.ok.injEq, Prod.mk.injEq] at h; rw [← h.1]; rfl
  | cons b bs ih =>
    intro off os last h
    rw [seqOffsets] at h
    split at h
    · obtain ⟨⟨os', last'⟩, h1, h2⟩ := Res.bind_eq_ok.1 h
      simp only [Res.pure_def, Res.ok.injEq, Prod.mk.injEq] at h2
      rw [← h2.1]; simp [ih h1]
    · cases h

theorem seqOffsets_small {bs : List Bytes} (hs : ∀ b ∈ bs, b.length < 2 ^ 32) : ∀ off, off < 2 ^ 32 →
    seqOffsets off bs = if off + bs.flatten.length < 2 ^ 32
      then .ok (fieldOffsets off bs, off + bs.flatten.length) else .err .serialize := by
  induction bs with
  | nil => intro off h; simp [seqOffsets, fieldOffsets, h]
  | cons b bs ih =>
    intro off h
    have hb : b.length % 2 ^ 32 = b.length := Nat.mod_eq_of_lt (hs b (by simp))
    rw [seqOffsets, hb]
    simp only [List.flatten_cons, List.length_append]
    by_cases h1 : off + b.length < 2 ^ 32
    · rw [if_pos h1, ih (fun x hx => hs x (by simp [hx])) _ h1]
      by_cases h2 : off + b.length + bs.flatten.length < 2 ^ 32
      · rw [if_pos h2, if_pos (by omega)]
        simp only [Res.ok_bind, Res.pure_def, fieldOffsets, Nat.add_assoc]
      · rw [if_neg h2, if_neg (by omega)]; rfl
    · rw [if_neg h1, if_neg (by omega)]

theorem mapOffsets_length : ∀ {ps : List (Bytes × Bytes)} {k v os last},
    mapOffsets k v ps = .ok (os, last) → os.length = ps.length := by
  intro ps
  induction ps with
  | nil => intro k v os last h; simp only [mapOffsets, Res.ok.injEq, Prod.mk.injEq] at h; rw [← h.1]; rfl
  | cons p ps ih =>
    intro k v os last h
    obtain ⟨kb, vb⟩ := p
    rw [mapOffsets] at h
    split at h
    · split at h
      · obtain ⟨⟨os', last'⟩, h1, h2⟩ := Res.bind_eq_ok.1 h
        simp only [Res.pure_def, Res.ok.injEq, Prod.mk.injEq] at h2
        rw [← h2.1]; simp [ih h1]
      · cases h
    · cases h

theorem mapOffsets_small {ps : List (Bytes × Bytes)}
    (hs : ∀ p ∈ ps, p.1.length < 2 ^ 32 ∧ p.2.length < 2 ^ 32) : ∀ k v, k < 2 ^ 32 → v < 2 ^ 32 →
    mapOffsets k v ps =
      if k + (ps.map Prod.fst).flatten.length < 2 ^ 32 ∧ v + (ps.map Prod.snd).flatten.length < 2 ^ 32
      then .ok ((fieldOffsets k (ps.map Prod.fst)).zip (fieldOffsets v (ps.map Prod.snd)),
        k + (ps.map Prod.fst).flatten.length, v + (ps.map Prod.snd).flatten.length)
      else .err .serialize := by
  induction ps with
  | nil => intro k v h1 h2; simp [mapOffsets, fieldOffsets, h1, h2]
  | cons p ps ih =>
    intro k v h1 h2
    obtain ⟨kb, vb⟩ := p
    have hb := hs (kb, vb) (by simp)
    have hk : kb.length % 2 ^ 32 = kb.length := Nat.mod_eq_of_lt hb.1
    have hv : vb.length % 2 ^ 32 = vb.length := Nat.mod_eq_of_lt hb.2
    rw [mapOffsets, hk, hv]
    simp only [List.map_cons, List.flatten_cons, List.length_append]
    by_cases c1 : k + kb.length < 2 ^ 32
    · rw [if_pos c1]
      by_cases c2 : v + vb.length < 2 ^ 32
      · rw [if_pos c2, ih (fun x hx => hs x (by simp [hx])) _ _ c1 c2]
        by_cases c3 : k + kb.length + (ps.map Prod.fst).flatten.length < 2 ^ 32 ∧
            v + vb.length + (ps.map Prod.snd).flatten.length < 2 ^ 32
        · rw [if_pos c3, if_pos (by omega)]
          simp only [Res.ok_bind, Res.pure_def, fieldOffsets, List.zip_cons_cons, Nat.add_assoc]
        · rw [if_neg c3, if_neg (by omega)]; rfl
      · rw [if_neg c2, if_neg (by omega)]
    · rw [if_neg c1, if_neg (by omega)]

theorem pairTable_length (os : List (Nat × Nat)) :
    ((os.map fun o => leBytes 4 o.1 ++ leBytes 4 o.2).flatten).length = os.length * 8 := by
  induction os with
  | nil => rfl
  | cons o os ih =>
    simp only [List.map_cons, List.flatten_cons, List.length_append, leBytes_length,
      List.length_cons, ih]; omega

theorem pairTable_tbl (os : List (Nat × Nat)) :
    (os.map fun o => leBytes 4 o.1 ++ leBytes 4 o.2).flatten =
      tbl (os.map fun o => [o.1, o.2]).flatten := by
  induction os with
  | nil => rfl
  | cons o os ih =>
    simp only [List.map_cons, List.flatten_cons, ih, tbl, List.map_append, List.map_nil,
      List.flatten_append, List.flatten_nil, List.append_nil]

theorem pairs_flatten_length (os : List (Nat × Nat)) :
    ((os.map fun o => [o.1, o.2]).flatten).length = os.length * 2 := by
  induction os with
  | nil => rfl
  | cons o os ih => simp only [List.map_cons, List.flatten_cons, List.length_append, ih,
      List.length_cons, List.length_nil]; omega

theorem pairs_flatten_get (os : List (Nat × Nat)) : ∀ i (hi : i < os.length),
    ∃ (h1 : 2 * i < ((os.map fun o => [o.1, o.2]).flatten).length)
      (h2 : 2 * i + 1 < ((os.map fun o => [o.1, o.2]).flatten).length),
      ((os.map fun o => [o.1, o.2]).flatten)[2 * i] = os[i].1 ∧
      ((os.map fun o => [o.1, o.2]).flatten)[2 * i + 1] = os[i].2 := by
  induction os with
  | nil => intro i hi; simp at hi
  | cons o os ih =>
    intro i hi
    have e : ((o :: os).map fun o => [o.1, o.2]).flatten =
        o.1 :: o.2 :: (os.map fun o => [o.1, o.2]).flatten := by simp
    cases i with
    | zero =>
      refine ⟨by rw [pairs_flatten_length]; simp, by rw [pairs_flatten_length]; simp; omega, ?_⟩
      simp
    | succ i =>
      have hi' : i < os.length := by simpa using hi
      obtain ⟨a1, a2, b1, b2⟩ := ih i hi'
      have l1 : 2 * (i + 1) < (((o :: os).map fun o => [o.1, o.2]).flatten).length := by
        rw [pairs_flatten_length]; simp; omega
      have l2 : 2 * (i + 1) + 1 < (((o :: os).map fun o => [o.1, o.2]).flatten).length := by
        rw [pairs_flatten_length]; simp; omega
      refine ⟨l1, l2, ?_, ?_⟩
      · have : (((o :: os).map fun o => [o.1, o.2]).flatten)[2 * (i + 1)]'l1 =
            (o.1 :: o.2 :: (os.map fun o => [o.1, o.2]).flatten)[2 * i + 1 + 1]'(by
              simp only [List.length_cons]; omega) := by
          congr 1
        rw [this, List.getElem_cons_succ, List.getElem_cons_succ, b1]; rfl
      · have : (((o :: os).map fun o => [o.1, o.2]).flatten)[2 * (i + 1) + 1]'l2 =
            (o.1 :: o.2 :: (os.map fun o => [o.1, o.2]).flatten)[2 * i + 1 + 1 + 1]'(by
              simp only [List.length_cons]; omega) := by
          congr 1
        rw [this, List.getElem_cons_succ, List.getElem_cons_succ, b2]; rfl

/-- The two columns of a map's table. -/
theorem u32At_pairTable (os : List (Nat × Nat)) (rest : Bytes) (i : Nat) (hi : i < os.length)
    (h1 : os[i].1 < 2 ^ 32) (h2 : os[i].2 < 2 ^ 32) :
    u32At ((os.map fun o => leBytes 4 o.1 ++ leBytes 4 o.2).flatten ++ rest) (i * 8) = os[i].1 ∧
    u32At ((os.map fun o => leBytes 4 o.1 ++ leBytes 4 o.2).flatten ++ rest) (i * 8 + 4) = os[i].2 := by
  obtain ⟨a1, a2, b1, b2⟩ := pairs_flatten_get os i hi
  rw [pairTable_tbl]
  have e1 : i * 8 = 2 * i * 4 := by omega
  have e2 : i * 8 + 4 = (2 * i + 1) * 4 := by omega
  refine ⟨?_, ?_⟩
  · rw [e1, u32At_tbl _ _ _ a1 (by rw [b1]; exact h1), b1]
  · rw [e2, u32At_tbl _ _ _ a2 (by rw [b2]; exact h2), b2]

theorem Codec.Lawful.faithful {c : Codec α} (h : c.Lawful) (hc : c.Checks) : c.Faithful where
  round_trip := h.round_trip
  skip_after v b hv hb t := by
    obtain ⟨x, hx⟩ := h.skip_agree _ _ _ (h.round_trip v b hv hb t)
    exact hx
  skipS_after v b hv hb t := by
    obtain ⟨x, hx⟩ := h.skip_agree _ _ _ (h.round_trip v b hv hb t)
    rw [h.skipS_eq]; exact hx
  check_after v b hv hb t := (hc _ _).2 ⟨v, h.round_trip v b hv hb t⟩

/-! ### Reading sequences back -/

theorem writeSeqBodies_ok {bs : List Bytes} {b : Bytes} (h : writeSeqBodies bs = .ok b) :
    (bs.length < 8 ∧ b = 0 :: (writeVarint bs.length ++ bs.flatten)) ∨
    (8 ≤ bs.length ∧ ∃ os last, seqOffsets 0 bs = .ok (os, last) ∧
      b = 1 :: (writeVarint bs.length ++ (tbl os ++ bs.flatten))) := by
  unfold writeSeqBodies at h
  by_cases hn : bs.length < offsetTableMinLen
  · rw [if_pos hn] at h
    exact .inl ⟨hn, (Res.ok.inj h).symm⟩
  · rw [if_neg hn] at h
    obtain ⟨⟨os, last⟩, h1, h2⟩ := Res.bind_eq_ok.1 h
    refine .inr ⟨Nat.le_of_not_lt hn, os, last, h1, ?_⟩
    exact (Res.ok.inj h2).symm

theorem readIndexedSeq_write {m : Rd α} {f : α → Res Bytes} {l : List α} {bs b} {cap : Nat → Bool}
    (hrt : ∀ a ∈ l, ∀ b, f a = .ok b → ∀ t, m (b ++ t) = .ok (a, t))
    (hbs : encEach f l = .ok bs) (hw : writeSeqBodies bs = .ok b) (hn : l.length < 2 ^ 60)
    (hcap : cap l.length = true) (t : Bytes) : readIndexedSeq cap m (b ++ t) = .ok (l, t) := by
  have hl := encEach_length hbs
  rcases writeSeqBodies_ok hw with ⟨_, rfl⟩ | ⟨_, os, last, ho, rfl⟩
  · rw [List.cons_append, List.append_assoc, hl]
    unfold readIndexedSeq
    rw [Rd.bind_of_ok (Rd.readByte_cons _ _), Rd.bind_of_ok (readVarint_write _ (by omega) _),
      if_pos (by decide), hcap, Rd.alloc_true, Rd.pure_bind]
    exact readN_each hrt hbs t
  · have hol := seqOffsets_length ho
    rw [List.cons_append, List.append_assoc, List.append_assoc, hl]
    unfold readIndexedSeq
    have hm : checkedMul l.length 4 .overrun = .ok (l.length * 4) := by
      unfold checkedMul; rw [if_pos (by omega)]
    rw [Rd.bind_of_ok (Rd.readByte_cons _ _), Rd.bind_of_ok (readVarint_write _ (by omega) _),
      if_neg (by decide), hm, Rd.lift_ok, Rd.pure_bind,
      Rd.bind_of_ok (Rd.advance_append (tbl os) _ _ (by rw [tbl_length]; omega)), hcap,
      Rd.alloc_true, Rd.pure_bind]
    exact readN_each hrt hbs t

theorem fieldOffsets_last (bs : List Bytes) (off : Nat) (_h : 0 < bs.length) :
    ∀ h', (fieldOffsets off bs)[bs.length - 1]'h' = off + (bs.dropLast).flatten.length := by
  intro h'
  have := fieldOffsets_get bs off (bs.length - 1) (by omega)
  rw [this, List.dropLast_eq_take]

theorem skipIndexedSeq_lands {m : Rd Unit} {f : α → Res Bytes} {l : List α} {bs b}
    (hrt : ∀ a ∈ l, ∀ b, f a = .ok b → ∀ t, Lands w (m (b ++ t)) t)
    (hbs : encEach f l = .ok bs) (hw : writeSeqBodies bs = .ok b) (hn : l.length < 2 ^ 60)
    (hs : ∀ b ∈ bs, b.length < 2 ^ 32) (t : Bytes) :
    Lands w (skipIndexedSeq m (b ++ t)) t := by
  have hl := encEach_length hbs
  rcases writeSeqBodies_ok hw with ⟨_, rfl⟩ | ⟨h8, os, last, ho, rfl⟩
  · rw [List.cons_append, List.append_assoc, hl]
    unfold skipIndexedSeq
    rw [Rd.bind_of_ok (Rd.readByte_cons _ _), Rd.bind_of_ok (readVarint_write _ (by omega) _),
      if_pos (by decide)]
    exact repeatN_lands hrt hbs t
  · have hol := seqOffsets_length ho
    rw [seqOffsets_small hs 0 (by decide)] at ho
    split at ho
    case isFalse => cases ho
    case isTrue hfit =>
    simp only [Res.ok.injEq, Prod.mk.injEq] at ho
    obtain ⟨rfl, _⟩ := ho
    rw [List.cons_append, List.append_assoc, List.append_assoc, hl]
    unfold skipIndexedSeq
    have hm : checkedMul l.length 4 .overrun = .ok (l.length * 4) := by
      unfold checkedMul; rw [if_pos (by omega)]
    have hlast : bs = bs.dropLast ++ [bs[bs.length - 1]'(by omega)] := by
      conv => lhs; rw [← List.dropLast_concat_getLast (l := bs) (by intro e; simp [e] at h8)]
      rw [List.getLast_eq_getElem]
    have hfl : bs.flatten = bs.dropLast.flatten ++ bs[bs.length - 1]'(by omega) := by
      conv => lhs; rw [hlast]
      rw [List.flatten_append]; simp
    have hdl : bs.dropLast.flatten.length ≤ bs.flatten.length := by rw [hfl]; simp
    have hu : u32At (tbl (fieldOffsets 0 bs)) ((l.length - 1) * 4) = bs.dropLast.flatten.length := by
      have h1 : l.length - 1 < (fieldOffsets 0 bs).length := by rw [hol]; omega
      have h2 : (fieldOffsets 0 bs)[l.length - 1]'h1 = bs.dropLast.flatten.length := by
        have := fieldOffsets_last bs 0 (by omega) (by rw [hol]; omega)
        rw [Nat.zero_add] at this
        rw [← this]; congr 1; omega
      have := u32At_tbl (fieldOffsets 0 bs) [] (l.length - 1) h1 (by rw [h2]; omega)
      rw [List.append_nil] at this
      rw [this, h2]
    have hd : decodeU32At (tbl (fieldOffsets 0 bs)) ((l.length - 1) * 4) =
        .ok bs.dropLast.flatten.length := by
      rw [decodeU32At_ok (by rw [tbl_length]; omega), hu]
    have hpk : Rd.peek (l.length * 4) (tbl (fieldOffsets 0 bs) ++ (bs.flatten ++ t)) =
        .ok (tbl (fieldOffsets 0 bs), tbl (fieldOffsets 0 bs) ++ (bs.flatten ++ t)) := by
      have : (tbl (fieldOffsets 0 bs)).length = l.length * 4 := by rw [tbl_length]; omega
      simp only [Rd.peek]
      rw [if_pos (by rw [List.length_append]; omega), List.take_append_of_le_length (by omega),
        List.take_of_length_le (by omega)]
    rw [Rd.bind_of_ok (Rd.readByte_cons _ _), Rd.bind_of_ok (readVarint_write _ (by omega) _),
      if_neg (by decide), if_neg (by omega), hm, Rd.lift_ok, Rd.pure_bind,
      Rd.bind_of_ok hpk, hd, Rd.lift_ok, Rd.pure_bind,
      Rd.bind_of_ok (Rd.advance_append (tbl (fieldOffsets 0 bs)) _ _ (by rw [tbl_length]; omega)),
      hfl, List.append_assoc, Rd.bind_of_ok (Rd.advance_append _ _ _ rfl)]
    refine hrt _ (List.getElem_mem (by omega : l.length - 1 < l.length)) _ ?_ t
    have := encEach_get hbs (l.length - 1) (by omega) (by omega)
    rw [this]; congr 2; omega

theorem skipIndexedSeq_write {m : Rd Unit} {f : α → Res Bytes} {l : List α} {bs b}
    (hrt : ∀ a ∈ l, ∀ b, f a = .ok b → ∀ t, m (b ++ t) = .ok ((), t))
    (hbs : encEach f l = .ok bs) (hw : writeSeqBodies bs = .ok b) (hn : l.length < 2 ^ 60)
    (hs : ∀ b ∈ bs, b.length < 2 ^ 32) (t : Bytes) :
    skipIndexedSeq m (b ++ t) = .ok ((), t) :=
  (skipIndexedSeq_lands (w := false) (fun a ha b hb t => .ok (hrt a ha b hb t)) hbs hw hn hs t).strict

/-! ### Reading maps back -/

theorem encPair_ok {k : κ → Res Bytes} {v : ν → Res Bytes} {e : κ × ν} {p : Bytes × Bytes} :
    encPair k v e = .ok p ↔ k e.1 = .ok p.1 ∧ v e.2 = .ok p.2 := by
  obtain ⟨pk, pv⟩ := p
  simp only [encPair, Res.bind_eq_ok, Res.pure_def, Res.ok.injEq, Prod.mk.injEq]
  constructor
  · rintro ⟨a, h1, b, h2, rfl, rfl⟩; exact ⟨h1, h2⟩
  · rintro ⟨h1, h2⟩; exact ⟨_, h1, _, h2, rfl, rfl⟩

theorem encEach_pairs {k : κ → Res Bytes} {v : ν → Res Bytes} {l : List (κ × ν)} :
    ∀ {ps}, encEach (encPair k v) l = .ok ps →
      encEach k (l.map Prod.fst) = .ok (ps.map Prod.fst) ∧
      encEach v (l.map Prod.snd) = .ok (ps.map Prod.snd) ∧
      encEach (fun e => (fun p : Bytes × Bytes => p.1 ++ p.2) <$> encPair k v e) l =
        .ok (ps.map fun p => p.1 ++ p.2) := by
  induction l with
  | nil => intro ps h; injection h with h; subst h; exact ⟨rfl, rfl, rfl⟩
  | cons e l ih =>
    intro ps h
    obtain ⟨p, ps', rfl, hp, hps⟩ := encEach_cons.1 h
    obtain ⟨h1, h2, h3⟩ := ih hps
    have := encPair_ok.1 hp
    refine ⟨encEach_cons.2 ⟨_, _, rfl, this.1, h1⟩, encEach_cons.2 ⟨_, _, rfl, this.2, h2⟩,
      encEach_cons.2 ⟨_, _, rfl, ?_, h3⟩⟩
    rw [hp]; rfl

theorem writeMapPairs_ok {ps : List (Bytes × Bytes)} {b : Bytes} (h : writeMapPairs ps = .ok b) :
    (ps.length < 8 ∧ b = 0 :: (writeVarint ps.length ++ (ps.map fun p => p.1 ++ p.2).flatten)) ∨
    (8 ≤ ps.length ∧ ∃ os kl vl, mapOffsets 0 0 ps = .ok (os, kl, vl) ∧
      b = 1 :: (writeVarint ps.length ++ ((os.map fun o => leBytes 4 o.1 ++ leBytes 4 o.2).flatten ++
        (leBytes 4 kl ++ (leBytes 4 vl ++ ((ps.map Prod.fst).flatten ++
          (ps.map Prod.snd).flatten)))))) := by
  unfold writeMapPairs at h
  by_cases hn : ps.length < offsetTableMinLen
  · rw [if_pos hn] at h
    exact .inl ⟨hn, (Res.ok.inj h).symm⟩
  · rw [if_neg hn] at h
    obtain ⟨⟨os, kl, vl⟩, h1, h2⟩ := Res.bind_eq_ok.1 h
    refine .inr ⟨Nat.le_of_not_lt hn, os, kl, vl, h1, ?_⟩
    exact (Res.ok.inj h2).symm

theorem readIndexedMap_write {mk : Rd κ} {mv : Rd ν} {k : κ → Res Bytes} {v : ν → Res Bytes}
    {l : List (κ × ν)} {ps b} {pre capK capV : Nat → Bool} {build}
    (hk : ∀ e ∈ l, ∀ b, k e.1 = .ok b → ∀ t, mk (b ++ t) = .ok (e.1, t))
    (hv : ∀ e ∈ l, ∀ b, v e.2 = .ok b → ∀ t, mv (b ++ t) = .ok (e.2, t))
    (hps : encEach (encPair k v) l = .ok ps) (hw : writeMapPairs ps = .ok b)
    (hn : l.length < 2 ^ 60) (hpre : pre l.length = true) (hcK : capK l.length = true)
    (hcV : capV l.length = true) (t : Bytes) :
    readIndexedMap pre capK capV mk mv build (b ++ t) = .ok (build l, t) := by
  have hl := encEach_length hps
  obtain ⟨h1, h2, h3⟩ := encEach_pairs hps
  rcases writeMapPairs_ok hw with ⟨_, rfl⟩ | ⟨_, os, kl, vl, ho, rfl⟩
  · rw [List.cons_append, List.append_assoc, hl]
    unfold readIndexedMap
    rw [Rd.bind_of_ok (Rd.readByte_cons _ _), Rd.bind_of_ok (readVarint_write _ (by omega) _), hpre,
      Rd.alloc_true, Rd.pure_bind, if_pos (by decide), Rd.bind_of_ok (readN_each ?_ h3 t)]
    · rfl
    · intro e he b hb t
      cases hp : encPair k v e with
      | ok p =>
        rw [hp] at hb
        obtain ⟨pk, pv⟩ := p
        have hb : b = pk ++ pv := (Res.ok.inj hb).symm
        have hp := encPair_ok.1 hp
        subst hb
        rw [List.append_assoc, Rd.bind_of_ok (hk e he _ hp.1 _), Rd.bind_of_ok (hv e he _ hp.2 _)]
        rfl
      | err _ => rw [hp] at hb; cases hb
      | panic => rw [hp] at hb; cases hb
  · have hol := mapOffsets_length ho
    rw [List.cons_append, List.append_assoc, List.append_assoc, hl]
    unfold readIndexedMap
    have hm : checkedMul l.length 8 .overrun = .ok (l.length * 8) := by
      unfold checkedMul; rw [if_pos (by omega)]
    have ha : addU (l.length * 8) 8 = .ok (l.length * 8 + 8) := by
      unfold addU; rw [if_pos (by omega)]
    rw [Rd.bind_of_ok (Rd.readByte_cons _ _), Rd.bind_of_ok (readVarint_write _ (by omega) _), hpre,
      Rd.alloc_true, Rd.pure_bind, if_neg (by decide), hm, Rd.lift_ok, Rd.pure_bind, ha, Rd.lift_ok,
      Rd.pure_bind]
    have e : (List.map (fun o : Nat × Nat => leBytes 4 o.1 ++ leBytes 4 o.2) os).flatten ++
        (leBytes 4 kl ++ (leBytes 4 vl ++ ((ps.map Prod.fst).flatten ++
          (ps.map Prod.snd).flatten)) ++ t) =
        ((List.map (fun o : Nat × Nat => leBytes 4 o.1 ++ leBytes 4 o.2) os).flatten ++
          (leBytes 4 kl ++ leBytes 4 vl)) ++
        ((ps.map Prod.fst).flatten ++ ((ps.map Prod.snd).flatten ++ t)) := by
      simp only [List.append_assoc]
    have hk' := readN_each (m := mk) (l := l.map Prod.fst) (f := k) (bs := ps.map Prod.fst)
      (by
        intro a ha b hb t
        obtain ⟨e, he, rfl⟩ := List.mem_map.1 ha
        exact hk e he b hb t) h1 ((ps.map Prod.snd).flatten ++ t)
    have hv' := readN_each (m := mv) (l := l.map Prod.snd) (f := v) (bs := ps.map Prod.snd)
      (by
        intro a ha b hb t
        obtain ⟨e, he, rfl⟩ := List.mem_map.1 ha
        exact hv e he b hb t) h2 t
    rw [List.length_map] at hk' hv'
    rw [e, Rd.bind_of_ok (Rd.advance_append _ _ _ (by
      simp only [List.length_append, pairTable_length, leBytes_length]; omega)), hcK,
      Rd.alloc_true, Rd.pure_bind, Rd.bind_of_ok hk', hcV, Rd.alloc_true, Rd.pure_bind,
      Rd.bind_of_ok hv', ← List.unzip_fst, ← List.unzip_snd, List.zip_unzip]
    rfl

theorem skipIndexedMap_lands {mk mv : Rd Unit} {k : κ → Res Bytes} {v : ν → Res Bytes}
    {l : List (κ × ν)} {ps b}
    (hk : ∀ e ∈ l, ∀ b, k e.1 = .ok b → ∀ t, Lands w (mk (b ++ t)) t)
    (hv : ∀ e ∈ l, ∀ b, v e.2 = .ok b → ∀ t, Lands w (mv (b ++ t)) t)
    (hps : encEach (encPair k v) l = .ok ps) (hw : writeMapPairs ps = .ok b)
    (hn : l.length < 2 ^ 60) (hs : ∀ p ∈ ps, p.1.length < 2 ^ 32 ∧ p.2.length < 2 ^ 32) (t : Bytes) :
    Lands w (skipIndexedMap mk mv (b ++ t)) t := by
  have hl := encEach_length hps
  obtain ⟨_, _, h3⟩ := encEach_pairs hps
  rcases writeMapPairs_ok hw with ⟨_, rfl⟩ | ⟨_, os, kl, vl, ho, rfl⟩
  · rw [List.cons_append, List.append_assoc, hl]
    unfold skipIndexedMap
    rw [Rd.bind_of_ok (Rd.readByte_cons _ _), Rd.bind_of_ok (readVarint_write _ (by omega) _),
      if_pos (by decide)]
    refine repeatN_lands ?_ h3 t
    intro e he b hb t
    cases hp : encPair k v e with
    | ok p =>
      rw [hp] at hb
      obtain ⟨pk, pv⟩ := p
      have hb : b = pk ++ pv := (Res.ok.inj hb).symm
      have hp := encPair_ok.1 hp
      subst hb
      rw [List.append_assoc]
      exact (hk e he _ hp.1 _).bind (hv e he _ hp.2 _)
    | err _ => rw [hp] at hb; cases hb
    | panic => rw [hp] at hb; cases hb
  · have hol := mapOffsets_length ho
    rw [mapOffsets_small hs 0 0 (by decide) (by decide)] at ho
    split at ho
    case isFalse => cases ho
    case isTrue hfit =>
    simp only [Res.ok.injEq, Prod.mk.injEq, Nat.zero_add] at ho hfit
    obtain ⟨_, hkl, hvl⟩ := ho
    rw [List.cons_append, List.append_assoc, List.append_assoc, hl]
    unfold skipIndexedMap
    have hm : checkedMul l.length 8 .overrun = .ok (l.length * 8) := by
      unfold checkedMul; rw [if_pos (by omega)]
    rw [Rd.bind_of_ok (Rd.readByte_cons _ _), Rd.bind_of_ok (readVarint_write _ (by omega) _),
      if_neg (by decide), hm, Rd.lift_ok, Rd.pure_bind,
      Rd.bind_of_ok (Rd.advance_append _ _ _ (by rw [pairTable_length]; omega))]
    have e : leBytes 4 kl ++ (leBytes 4 vl ++ ((ps.map Prod.fst).flatten ++
          (ps.map Prod.snd).flatten)) ++ t =
        (leBytes 4 kl ++ leBytes 4 vl) ++
        (((ps.map Prod.fst).flatten ++ (ps.map Prod.snd).flatten) ++ t) := by
      simp only [List.append_assoc]
    have ek : leVal ((leBytes 4 kl ++ leBytes 4 vl).take 4) = kl := by
      rw [List.take_append_of_le_length (by rw [leBytes_length]; exact Nat.le_refl _),
        List.take_of_length_le (by rw [leBytes_length]; exact Nat.le_refl _), leVal_leBytes]
      exact Nat.mod_eq_of_lt (by omega)
    have ev : leVal ((leBytes 4 kl ++ leBytes 4 vl).drop 4) = vl := by
      rw [List.drop_append_of_le_length (by rw [leBytes_length]; exact Nat.le_refl _),
        List.drop_of_length_le (by rw [leBytes_length]; exact Nat.le_refl _), List.nil_append,
        leVal_leBytes]
      exact Nat.mod_eq_of_lt (by omega)
    rw [e, Rd.bind_of_ok (Rd.readExact_append _ _ 8 (by simp [leBytes_length]))]
    simp only [ek, ev]
    exact .ok (Rd.advance_append _ _ _ (by rw [List.length_append]; omega))

theorem skipIndexedMap_write {mk mv : Rd Unit} {k : κ → Res Bytes} {v : ν → Res Bytes}
    {l : List (κ × ν)} {ps b}
    (hk : ∀ e ∈ l, ∀ b, k e.1 = .ok b → ∀ t, mk (b ++ t) = .ok ((), t))
    (hv : ∀ e ∈ l, ∀ b, v e.2 = .ok b → ∀ t, mv (b ++ t) = .ok ((), t))
    (hps : encEach (encPair k v) l = .ok ps) (hw : writeMapPairs ps = .ok b)
    (hn : l.length < 2 ^ 60) (hs : ∀ p ∈ ps, p.1.length < 2 ^ 32 ∧ p.2.length < 2 ^ 32) (t : Bytes) :
    skipIndexedMap mk mv (b ++ t) = .ok ((), t) :=
  (skipIndexedMap_lands (w := false) (fun e he b hb t => .ok (hk e he b hb t))
    (fun e he b hb t => .ok (hv e he b hb t)) hps hw hn hs t).strict

/-! ### Rebuilding containers -/

section Btree
variable {κ : Type} {cmp : κ → κ → Ordering} [Std.TransCmp cmp]

omit [Std.TransCmp cmp] in
theorem btreeInsert_mem {l : List (κ × ν)} {p e : κ × ν} (h : e ∈ btreeInsert cmp l p) :
    e.1 = p.1 ∨ e.1 ∈ l.map Prod.fst := by
  induction l with
  | nil => simp only [btreeInsert, List.mem_singleton] at h; exact .inl (by rw [h])
  | cons x l ih =>
    rw [btreeInsert] at h
    split at h
    · rcases List.mem_cons.1 h with rfl | h
      · exact .inl rfl
      · exact .inr (List.mem_map_of_mem h)
    · rcases List.mem_cons.1 h with rfl | h
      · exact .inr (by simp)
      · exact .inr (by simp [List.mem_map_of_mem h])
    · rcases List.mem_cons.1 h with rfl | h
      · exact .inr (by simp)
      · rcases ih h with h | h
        · exact .inl h
        · exact .inr (by simp only [List.map_cons, List.mem_cons]; exact .inr h)

theorem btreeInsert_strict {l : List (κ × ν)} (p : κ × ν) (h : StrictAsc cmp (l.map Prod.fst)) :
    StrictAsc cmp ((btreeInsert cmp l p).map Prod.fst) := by
  induction l with
  | nil => simp [btreeInsert, StrictAsc]
  | cons x l ih =>
    have hx := List.pairwise_cons.1 h
    rw [btreeInsert]
    split
    · rename_i hlt
      refine List.pairwise_cons.2 ⟨?_, h⟩
      intro y hy
      rcases List.mem_cons.1 hy with rfl | hy
      · exact hlt
      · exact Std.TransCmp.lt_trans hlt (hx.1 y hy)
    · exact List.pairwise_cons.2 ⟨hx.1, hx.2⟩
    · rename_i hgt
      refine List.pairwise_cons.2 ⟨?_, ih hx.2⟩
      intro y hy
      obtain ⟨e, he, rfl⟩ := List.mem_map.1 hy
      rcases btreeInsert_mem he with h | h
      · rw [h]; exact Std.OrientedCmp.lt_of_gt hgt
      · exact hx.1 _ h

omit [Std.TransCmp cmp] in
theorem btreeInsert_perm {l : List (κ × ν)} {p : κ × ν}
    (h : ∀ e ∈ l, cmp p.1 e.1 ≠ .eq) : (btreeInsert cmp l p).Perm (p :: l) := by
  induction l with
  | nil => exact .refl _
  | cons x l ih =>
    rw [btreeInsert]
    split
    · exact .refl _
    · rename_i heq; exact absurd heq (h x (by simp))
    · exact ((ih fun e he => h e (by simp [he])).cons x).trans (.swap _ _ _)

theorem btree_foldl_strict (l : List (κ × ν)) : ∀ acc : List (κ × ν),
    StrictAsc cmp (acc.map Prod.fst) →
    StrictAsc cmp ((l.foldl (btreeInsert cmp) acc).map Prod.fst) := by
  induction l with
  | nil => intro acc h; exact h
  | cons p l ih => intro acc h; exact ih _ (btreeInsert_strict p h)

theorem btree_foldl_perm (l : List (κ × ν)) : ∀ acc : List (κ × ν),
    (acc ++ l).Pairwise (fun a b => cmp a.1 b.1 ≠ .eq) →
    (l.foldl (btreeInsert cmp) acc).Perm (acc ++ l) := by
  induction l with
  | nil => intro acc _; simp
  | cons p l ih =>
    intro acc h
    have hsym : ∀ {a b : κ × ν}, cmp a.1 b.1 ≠ .eq → cmp b.1 a.1 ≠ .eq := by
      intro a b h e; exact h (Std.OrientedCmp.eq_symm e)
    have h' := List.pairwise_append.1 h
    have hp : (btreeInsert cmp acc p).Perm (p :: acc) := by
      refine btreeInsert_perm ?_
      intro e he
      exact hsym (h'.2.2 e he p (by simp))
    have hperm : (btreeInsert cmp acc p ++ l).Perm (acc ++ p :: l) :=
      (hp.append_right l).trans (by
        simpa using (List.perm_middle (a := p) (l₁ := acc) (l₂ := l)).symm)
    refine (ih _ ?_).trans hperm
    exact (List.Perm.pairwise_iff (fun h => hsym h) hperm).2 h

theorem strictAsc_perm_eq {l l' : List (κ × ν)} (hp : l.Perm l')
    (h : StrictAsc cmp (l.map Prod.fst)) (h' : StrictAsc cmp (l'.map Prod.fst)) : l = l' := by
  have e1 : l.Pairwise fun a b => cmp a.1 b.1 = .lt := List.pairwise_map.1 h
  have e2 : l'.Pairwise fun a b => cmp a.1 b.1 = .lt := List.pairwise_map.1 h'
  refine List.Perm.eq_of_pairwise (le := fun a b => cmp a.1 b.1 = .lt) ?_ e1 e2 hp
  intro a b _ _ h1 h2
  have := Std.TransCmp.lt_trans h1 h2
  rw [Std.ReflCmp.compare_self (cmp := cmp)] at this; cases this

/-- Inserting the entries of a sorted map in any order rebuilds the map. -/
theorem btree_rebuild {l l' : List (κ × ν)} (hp : l'.Perm l) (h : StrictAsc cmp (l.map Prod.fst)) :
    l'.foldl (btreeInsert cmp) [] = l := by
  refine strictAsc_perm_eq ((btree_foldl_perm l' [] ?_).trans hp)
    (btree_foldl_strict l' [] (by simp [StrictAsc])) h
  rw [List.nil_append]
  have hl : l.Pairwise fun a b => cmp a.1 b.1 ≠ .eq :=
    (List.pairwise_map.1 h).imp (fun {a b} (e : cmp a.1 b.1 = .lt) => by rw [e]; decide)
  exact (List.Perm.pairwise_iff (fun h e => h (Std.OrientedCmp.eq_symm e)) hp).2 hl

theorem btreeSet_rebuild {l l' : List κ} (hp : l'.Perm l) (h : StrictAsc cmp l) :
    btreeBuild cmp id l' = l := by
  have key : (l'.mergeSort fun a b => (cmp (id a) (id b)).isLE) = l := by
    have h1 : (l'.mergeSort fun a b => (cmp (id a) (id b)).isLE).Perm l :=
      (List.mergeSort_perm _ _).trans hp
    have h2 : (l'.mergeSort fun a b => (cmp (id a) (id b)).isLE).Pairwise
        fun a b => (cmp (id a) (id b)).isLE = true :=
      List.pairwise_mergeSort (fun a b c => btree_le_trans (cmp := cmp) (key := id) a b c)
        (fun a b => btree_le_total (cmp := cmp) (key := id) a b) _
    have h3 : l.Pairwise fun a b => cmp a b = .lt := h
    have h4 : (l'.mergeSort fun a b => (cmp (id a) (id b)).isLE).Pairwise
        fun a b => cmp a b ≠ .eq :=
      (List.Perm.pairwise_iff (fun h e => h (Std.OrientedCmp.eq_symm e)) h1).2
        (h3.imp (fun {a b} (e : cmp a b = .lt) => by rw [e]; decide))
    have h5 : (l'.mergeSort fun a b => (cmp (id a) (id b)).isLE).Pairwise
        fun a b => cmp a b = .lt := by
      refine (h2.and h4).imp ?_
      rintro a b ⟨x, y⟩
      simp only [id] at x
      cases hc : cmp a b
      · rfl
      · exact absurd hc y
      · rw [hc] at x; cases x
    refine List.Perm.eq_of_pairwise (le := fun a b => cmp a b = .lt) ?_ h5 h3 h1
    intro a b _ _ x y
    have := Std.TransCmp.lt_trans x y
    rw [Std.ReflCmp.compare_self (cmp := cmp)] at this; cases this
  unfold btreeBuild
  rw [key]
  exact dedupLast_fix cmp id l (by simpa using h)

end Btree

end Revision
