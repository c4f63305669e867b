import Verif.Spec.SchemaVariant

/-! # Lemmas about the options of variants -/

namespace Revision

/-! ### Overrides -/

theorem overrideLoop_ok : ∀ (ov : List VariantOverride) (d r d' r' : Option Nat),
    overrideLoop ov d r = .ok (d', r') ↔
      (d.toList ++ overrideDiscs ov).length ≤ 1 ∧ (r.toList ++ overrideRevisions ov).length ≤ 1 ∧
      d' = (d.toList ++ overrideDiscs ov).head? ∧ r' = (r.toList ++ overrideRevisions ov).head?
  | [], d, r, d', r' => by
    cases d <;> cases r <;> simp [overrideLoop, overrideDiscs, overrideRevisions, eq_comm]
  | .discriminant x :: ov, d, r, d', r' => by
    have ih := overrideLoop_ok ov (some x) r d' r'
    simp only [overrideLoop, overrideDiscs, overrideRevisions, List.filterMap_cons] at ih ⊢
    cases d with
    | none => simpa using ih
    | some y =>
      simp only [Option.isSome_some, if_true, Option.toList_some, List.length_append, List.length_cons]
      constructor
      · intro h; cases h
      · intro h; omega
  | .revision x :: ov, d, r, d', r' => by
    have ih := overrideLoop_ok ov d (some x) d' r'
    simp only [overrideLoop, overrideDiscs, overrideRevisions, List.filterMap_cons] at ih ⊢
    cases r with
    | none => simpa using ih
    | some y =>
      simp only [Option.isSome_some, if_true, Option.toList_some, List.length_append, List.length_cons]
      constructor
      · intro h; cases h
      · intro h; omega

/-! ### Options -/

namespace VariantOptions

/-- Set the option, whatever was there. -/
def set (o : VariantOptions) : VariantOption → VariantOptions
  | .start n => { o with start := some n }
  | .stop n => { o with stop := some n }
  | .convert f => { o with convert := some f }
  | .default f => { o with default := some f }
  | .fieldsName f => { o with fieldsName := some f }
  | .size s => { o with size := some s }
  | .override ov =>
    { o with overrides := (VariantOption.override ov).overrideOf.toList ++ o.overrides }

def seen (o : VariantOptions) : VariantKind → Bool
  | .start => o.start.isSome
  | .stop => o.stop.isSome
  | .convert => o.convert.isSome
  | .default => o.default.isSome
  | .fieldsName => o.fieldsName.isSome
  | .size => o.size.isSome

/-- The option is allowed by itself. -/
def fine : VariantOption → Prop
  | .override ov => (overrideRevisions ov).length = 1 ∧ (overrideDiscs ov).length ≤ 1
  | _ => True

theorem step_ok (o o' : VariantOptions) (x : VariantOption) :
    o.step x = .ok o' ↔ o' = o.set x ∧ (∀ k, x.kind = some k → o.seen k = false) ∧ fine x := by
  cases x with
  | override ov =>
    simp only [step, set, VariantOption.kind, fine, VariantOption.overrideOf]
    cases hl : overrideLoop ov none none with
    | error e =>
      refine ⟨fun h => (by cases h), ?_⟩
      rintro ⟨_, _, h1, h2⟩
      have := (overrideLoop_ok ov none none (overrideDiscs ov).head? (overrideRevisions ov).head?).2
        ⟨by simpa using h2, by simp; omega, by simp, by simp⟩
      rw [this] at hl; cases hl
    | ok p =>
      obtain ⟨d, r⟩ := p
      obtain ⟨h1, h2, h3, h4⟩ := (overrideLoop_ok ov none none d r).1 hl
      simp only [Option.toList_none, List.nil_append] at h1 h2 h3 h4
      cases hr : overrideRevisions ov with
      | nil =>
        rw [hr] at h4
        subst h4
        simp
      | cons y l =>
        rw [hr] at h2 h4
        simp only [List.head?_cons] at h4
        subst h4
        have : l = [] := by
          cases l with
          | nil => rfl
          | cons _ _ => simp at h2
        subst this h3
        simp only [List.head?_cons, Option.map_some, Option.toList_some, List.singleton_append,
          Except.ok.injEq, List.length_singleton, h1, and_self, and_true, reduceCtorEq, false_imp_iff,
          implies_true]
        exact eq_comm
  | _ =>
    rcases o with ⟨s, e, c, d, f, v, z⟩
    simp only [step, set, seen, VariantOption.kind, fine]
    grind [seen]

theorem seen_set (o : VariantOptions) (x : VariantOption) (k : VariantKind) :
    (o.set x).seen k = (o.seen k || decide (x.kind = some k)) := by
  cases x <;> cases k <;> simp [set, seen, VariantOption.kind]

theorem steps_ok : ∀ (xs : List VariantOption) (o o' : VariantOptions),
    o.steps xs = .ok o' ↔ o' = xs.foldl set o ∧ (xs.filterMap VariantOption.kind).Nodup ∧
      (∀ k ∈ xs.filterMap VariantOption.kind, o.seen k = false) ∧ ∀ x ∈ xs, fine x
  | [], o, o' => by simp [steps]; exact eq_comm
  | x :: xs, o, o' => by
    have hn : (List.filterMap VariantOption.kind (x :: xs)) =
        x.kind.toList ++ xs.filterMap VariantOption.kind := by
      rw [List.filterMap_cons]; cases x.kind <;> rfl
    rw [hn]
    unfold steps
    cases hx : o.step x with
    | error e =>
      refine ⟨fun h => (by cases h), ?_⟩
      rintro ⟨_, h2, h3, h4⟩
      have := (step_ok o (o.set x) x).2 ⟨rfl, fun k hk => h3 k (by simp [hk]), h4 x (by simp)⟩
      rw [this] at hx; cases hx
    | ok o1 =>
      obtain ⟨rfl, h2, h3⟩ := (step_ok o o1 x).1 hx
      simp only []
      rw [steps_ok xs]
      simp only [List.foldl_cons, List.nodup_append, List.mem_append, seen_set, Bool.or_eq_false_iff,
        decide_eq_false_iff_not, List.mem_cons, forall_eq_or_imp, h3, true_and, Option.mem_toList]
      constructor
      · rintro ⟨a, b, c, d⟩
        refine ⟨a, ⟨by cases x.kind <;> simp, b, ?_⟩, ?_, d⟩
        · intro k hk k' hk' e
          subst e
          exact (c k hk').2 hk
        · rintro k (hk | hk)
          · exact h2 k hk
          · exact (c k hk).1
      · rintro ⟨a, ⟨_, b, e⟩, c, d⟩
        exact ⟨a, b, fun k hk => ⟨c k (.inr hk), fun hk' => e k hk' k hk rfl⟩, d⟩

theorem seen_foldl : ∀ (xs : List VariantOption) (o : VariantOptions) (k : VariantKind),
    (xs.foldl set o).seen k = (o.seen k || decide (k ∈ xs.filterMap VariantOption.kind))
  | [], o, k => by simp
  | x :: xs, o, k => by
    rw [List.foldl_cons, seen_foldl xs, seen_set, Bool.eq_iff_iff]
    simp [List.mem_filterMap, or_assoc]

theorem seen_default (k : VariantKind) : ({} : VariantOptions).seen k = false := by cases k <;> rfl

theorem has_set (o : VariantOptions) (x y : VariantOption) (hy : ∃ k, y.kind = some k) :
    (o.set x).Has y ↔ y = x ∨ (o.Has y ∧ x.kind ≠ y.kind) := by
  obtain ⟨k, hk⟩ := hy
  cases x <;> cases y <;> simp [set, Has, VariantOption.kind] at hk ⊢ <;> exact eq_comm

theorem has_foldl : ∀ (xs : List VariantOption) (o : VariantOptions) (y : VariantOption) (k : VariantKind),
    y.kind = some k → (xs.filterMap VariantOption.kind).Nodup →
    ((xs.foldl set o).Has y ↔ y ∈ xs ∨ (o.Has y ∧ k ∉ xs.filterMap VariantOption.kind))
  | [], o, y, k, _, _ => by simp
  | x :: xs, o, y, k, hk, h => by
    have hn : (List.filterMap VariantOption.kind (x :: xs)) =
        x.kind.toList ++ xs.filterMap VariantOption.kind := by
      rw [List.filterMap_cons]; cases x.kind <;> rfl
    rw [hn] at h ⊢
    rw [List.nodup_append] at h
    rw [List.foldl_cons, has_foldl xs _ y k hk h.2.1, has_set o x y ⟨k, hk⟩]
    simp only [List.mem_cons, List.mem_append, not_or, Option.mem_toList, hk]
    constructor
    · rintro (h' | ⟨rfl | ⟨h1, h2⟩, h3⟩)
      · exact .inl (.inr h')
      · exact .inl (.inl rfl)
      · exact .inr ⟨h1, h2, h3⟩
    · rintro ((rfl | h') | ⟨h1, h2, h3⟩)
      · exact .inr ⟨.inl rfl, fun hm => h.2.2 k (by simp [hk]) k hm rfl⟩
      · exact .inl h'
      · exact .inr ⟨.inr ⟨h1, h2⟩, h3⟩

theorem overrides_foldl : ∀ (xs : List VariantOption) (o : VariantOptions),
    (xs.foldl set o).overrides = (xs.filterMap VariantOption.overrideOf).reverse ++ o.overrides
  | [], o => by simp
  | x :: xs, o => by
    rw [List.foldl_cons, overrides_foldl xs]
    cases x <;> simp only [set, List.filterMap_cons, VariantOption.overrideOf]
    rename_i ov
    cases (overrideRevisions ov).head? <;> simp

end VariantOptions

/-! ### Text -/

theorem isSpace_iff (c : Char) : isSpace c = true ↔ c.toNat ∈ whiteSpace := by
  unfold isSpace whiteSpace
  simp only [Bool.or_eq_true, Bool.and_eq_true, decide_eq_true_eq, List.mem_cons, List.not_mem_nil, or_false]
  omega

theorem dropWhile_spaces {a s : List Char} (ha : ∀ c ∈ a, isSpace c = true)
    (hs : ∀ c, s.head? = some c → isSpace c = false) : (a ++ s).dropWhile isSpace = s := by
  induction a with
  | nil =>
    cases s with
    | nil => rfl
    | cons c s => simp [List.dropWhile, hs c rfl]
  | cons c a ih =>
    simp only [List.cons_append, List.dropWhile, ha c (by simp)]
    exact ih fun x hx => ha x (by simp [hx])

/-- No white space at either end. -/
def Trimmed (s : List Char) : Prop :=
  (∀ c, s.head? = some c → isSpace c = false) ∧ ∀ c, s.getLast? = some c → isSpace c = false

theorem trimText_of {a b s : List Char} (h : ∀ c ∈ a ++ b, isSpace c = true) (hs : Trimmed s) :
    trimText (a ++ s ++ b) = s := by
  have ha : ∀ c ∈ a, isSpace c = true := fun c hc => h c (by simp [hc])
  have hb : ∀ c ∈ b, isSpace c = true := fun c hc => h c (by simp [hc])
  cases s with
  | nil =>
    have : (a ++ [] ++ b).dropWhile isSpace = [] := by
      have := dropWhile_spaces (a := a ++ b) (s := []) h (by simp)
      simpa using this
    rw [trimText, this]
    rfl
  | cons c s =>
    have h1 : (a ++ (c :: s) ++ b).dropWhile isSpace = c :: s ++ b := by
      rw [List.append_assoc]
      exact dropWhile_spaces ha (by intro x hx; exact hs.1 x (by simpa using hx))
    have h2 : ((c :: s ++ b).reverse).dropWhile isSpace = (c :: s).reverse := by
      rw [List.reverse_append]
      refine dropWhile_spaces (fun x hx => hb x (by simpa using hx)) ?_
      intro x hx
      exact hs.2 x (by rw [← hx, List.head?_reverse])
    rw [trimText, h1, h2, List.reverse_reverse]

theorem dropWhile_split (s : List Char) : ∃ a, s = a ++ s.dropWhile isSpace ∧ (∀ c ∈ a, isSpace c = true) ∧
    ∀ c, (s.dropWhile isSpace).head? = some c → isSpace c = false := by
  induction s with
  | nil => exact ⟨[], rfl, by simp, by simp⟩
  | cons c s ih =>
    by_cases h : isSpace c = true
    · obtain ⟨a, h1, h2, h3⟩ := ih
      refine ⟨c :: a, ?_, ?_, ?_⟩
      · simp only [List.dropWhile, h, List.cons_append]
        rw [← h1]
      · intro x hx
        rcases List.mem_cons.1 hx with rfl | hx
        · exact h
        · exact h2 x hx
      · simpa only [List.dropWhile, h] using h3
    · refine ⟨[], ?_, by simp, ?_⟩
      · simp [List.dropWhile, h]
      · intro x hx
        simp only [List.dropWhile, h, List.head?_cons, Option.some.injEq] at hx
        subst hx
        simpa using h

theorem trimText_split (s : List Char) :
    ∃ a b, s = a ++ trimText s ++ b ∧ (∀ c ∈ a ++ b, isSpace c = true) ∧ Trimmed (trimText s) := by
  obtain ⟨a, h1, h2, h3⟩ := dropWhile_split s
  obtain ⟨b, h4, h5, h6⟩ := dropWhile_split (s.dropWhile isSpace).reverse
  have e : s.dropWhile isSpace = trimText s ++ b.reverse := by
    rw [trimText, ← List.reverse_append, ← h4, List.reverse_reverse]
  refine ⟨a, b.reverse, ?_, ?_, ?_, ?_⟩
  · rw [List.append_assoc, ← e]; exact h1
  · intro c hc
    rcases List.mem_append.1 hc with hc | hc
    · exact h2 c hc
    · exact h5 c (by simpa using hc)
  · intro c hc
    refine h3 c ?_
    rw [e]
    cases ht : trimText s with
    | nil => rw [ht] at hc; simp at hc
    | cons x l => rw [ht] at hc; simpa using hc
  · intro c hc
    exact h6 c (by rw [← hc, trimText, List.getLast?_reverse])

theorem stripPrefix_iff : ∀ (p s r : List Char), stripPrefix p s = some r ↔ s = p ++ r
  | [], s, r => by simp [stripPrefix]
  | _ :: _, [], r => by simp [stripPrefix]
  | p :: ps, c :: s, r => by
    rw [stripPrefix]
    split
    · rename_i h; subst h; rw [stripPrefix_iff ps]; simp
    · rename_i h
      simp only [List.cons_append, List.cons.injEq]
      constructor
      · intro h'; cases h'
      · rintro ⟨h', _⟩; exact absurd h'.symm h

theorem stripSuffix_iff (c : Char) (s r : List Char) : stripSuffix c s = some r ↔ s = r ++ [c] := by
  unfold stripSuffix
  split
  · rename_i h
    rw [List.getLast?_eq_some_iff] at h
    obtain ⟨l, rfl⟩ := h
    simp
  · rename_i h
    constructor
    · intro h'; cases h'
    · rintro rfl; simp at h

theorem decimal_mono (ds : List Char) : ∀ n, n ≤ ds.foldl (fun n c => n * 10 + (c.toNat - 48)) n := by
  induction ds with
  | nil => intro n; exact Nat.le_refl _
  | cons c ds ih => intro n; refine Nat.le_trans ?_ (ih _); show n ≤ n * 10 + _; omega

theorem u8Digits_iff : ∀ (ds : List Char) (acc n : Nat), acc < 256 →
    (u8Digits acc ds = some n ↔ (∀ c ∈ ds, isDigit c) ∧
      ds.foldl (fun n c => n * 10 + (c.toNat - 48)) acc = n ∧ n < 256)
  | [], acc, n, h => by simp [u8Digits]; omega
  | c :: ds, acc, n, h => by
    rw [u8Digits]
    by_cases hd : 48 ≤ c.toNat ∧ c.toNat ≤ 57
    · rw [if_pos hd]
      by_cases hv : acc * 10 < 256 ∧ acc * 10 + (c.toNat - 48) < 256
      · rw [if_pos hv, u8Digits_iff ds _ n hv.2]
        simp only [List.mem_cons, forall_eq_or_imp, List.foldl_cons]
        exact ⟨fun ⟨a, b⟩ => ⟨⟨hd, a⟩, b⟩, fun ⟨⟨_, a⟩, b⟩ => ⟨a, b⟩⟩
      · rw [if_neg hv]
        refine ⟨fun h => (by cases h), ?_⟩
        rintro ⟨_, rfl, hlt⟩
        rw [List.foldl_cons] at hlt
        have := decimal_mono ds (acc * 10 + (c.toNat - 48))
        omega
    · rw [if_neg hd]
      refine ⟨fun h => (by cases h), ?_⟩
      rintro ⟨h, _⟩
      exact absurd (h c (by simp)) hd

theorem u8FromStr_iff (s : List Char) (n : Nat) : u8FromStr s = some n ↔
    ∃ plus ds, s = plus ++ ds ∧ (plus = [] ∨ plus = ['+']) ∧ ds ≠ [] ∧ (∀ c ∈ ds, isDigit c) ∧
      decimal ds = n ∧ n < 256 := by
  have hplus : ¬ isDigit '+' := by unfold isDigit; decide
  constructor
  · intro h
    unfold u8FromStr at h
    split at h
    · cases h
    · cases h
    · rename_i s hs
      obtain ⟨h1, h2, h3⟩ := (u8Digits_iff s 0 n (by decide)).1 h
      exact ⟨['+'], s, rfl, .inr rfl, fun e => hs (by rw [e]), h1, h2, h3⟩
    · rename_i h0 _ _
      obtain ⟨h1, h2, h3⟩ := (u8Digits_iff s 0 n (by decide)).1 h
      exact ⟨[], s, rfl, .inl rfl, fun e => h0 e, h1, h2, h3⟩
  · rintro ⟨plus, ds, rfl, hp, hne, hd, he, hlt⟩
    have hu := (u8Digits_iff ds 0 n (by decide)).2 ⟨hd, he, hlt⟩
    rcases hp with rfl | rfl
    · unfold u8FromStr
      split
      · rename_i h; exact absurd h hne
      · rename_i h; exact absurd (hd '+' (by simp at h; simp [h])) hplus
      · rename_i s _ h
        exact absurd (hd '+' (by simp at h; simp [h])) hplus
      · simpa using hu
    · cases ds with
      | nil => exact absurd rfl hne
      | cons c ds => exact hu

theorem digit_not_space {c : Char} (h : isDigit c) : isSpace c = false := by
  unfold isDigit at h
  unfold isSpace
  simp only [Bool.or_eq_false_iff, Bool.and_eq_false_iff, decide_eq_false_iff_not]
  omega

end Revision
