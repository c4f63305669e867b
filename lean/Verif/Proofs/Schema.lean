import Verif.Spec.Schema

/-! Helper lemmas for `Verif.Props.Schema`. -/

namespace Revision

/-! ### Histories -/

theorem insertEntry_perm (e : Entry) : ∀ l, (insertEntry e l).Perm (e :: l)
  | [] => .refl _
  | x :: xs => by
    unfold insertEntry
    split
    · exact .refl _
    · exact ((insertEntry_perm e xs).cons x).trans (.swap e x xs)

theorem sortEntries_perm : ∀ l, (sortEntries l).Perm l
  | [] => .refl _
  | e :: es => (insertEntry_perm e _).trans ((sortEntries_perm es).cons e)

theorem insertEntry_pairwise (e : Entry) : ∀ l : List Entry,
    l.Pairwise (fun a b => a.revision ≤ b.revision) →
    (insertEntry e l).Pairwise (fun a b => a.revision ≤ b.revision)
  | [], _ => by simp [insertEntry]
  | x :: xs, h => by
    have hx := List.pairwise_cons.1 h
    unfold insertEntry
    split
    · rename_i hle
      refine List.pairwise_cons.2 ⟨?_, h⟩
      intro a ha
      rcases List.mem_cons.1 ha with rfl | ha
      · exact hle
      · exact Nat.le_trans hle (hx.1 a ha)
    · rename_i hle
      refine List.pairwise_cons.2 ⟨?_, insertEntry_pairwise e xs hx.2⟩
      intro a ha
      rcases List.mem_cons.1 ((insertEntry_perm e xs).mem_iff.1 ha) with rfl | ha
      · omega
      · exact hx.1 a ha

theorem sortEntries_pairwise : ∀ l,
    (sortEntries l).Pairwise (fun a b : Entry => a.revision ≤ b.revision)
  | [] => .nil
  | e :: es => insertEntry_pairwise e _ (sortEntries_pairwise es)

theorem contiguous_ok : ∀ (es : List Entry) (idx : Nat) (prev : Option Nat),
    contiguous idx prev es = .ok () ↔ es.map Entry.revision = List.range' (idx + 1) es.length
  | [], idx, prev => by simp [contiguous]
  | e :: es, idx, prev => by
    unfold contiguous
    by_cases h : e.revision = idx + 1
    · rw [if_neg (by simpa using h), contiguous_ok es]
      simp [h, List.range'_succ]
    · rw [if_pos h]
      refine ⟨fun hc => ?_, fun hc => ?_⟩
      · split at hc <;> cases hc
      · simp [List.range'_succ, h] at hc

/-- What an error of the loop says about the entries. -/
theorem contiguous_error : ∀ (es : List Entry) (idx : Nat) (prev : Option Nat) (x : MacroErr),
    contiguous idx prev es = .error x →
    (prev = none ∧ idx = 0 ∨ prev = some idx ∧ 0 < idx) →
    es.Pairwise (fun a b => a.revision ≤ b.revision) → (∀ e ∈ es, ∀ p, prev = some p → p ≤ e.revision) →
    (∃ n, x = .duplicateRevision n ∧
        (prev = some n ∧ (∃ e ∈ es, e.revision = n) ∨ 2 ≤ (es.map Entry.revision).count n)) ∨
    (∃ a b, x = .gap a b ∧ (∃ e ∈ es, e.revision = b) ∧ idx < a ∧
      (b = 0 ∨ (∀ e ∈ es, e.revision ≠ a) ∧ (∀ m, idx < m → m < a → ∃ e ∈ es, e.revision = m)))
  | [], idx, prev, x, h, _, _, _ => by cases h
  | e :: es, idx, prev, x, h, hp, hs, hle => by
    have hs' := List.pairwise_cons.1 hs
    unfold contiguous at h
    by_cases hr : e.revision = idx + 1
    · rw [if_neg (by simpa using hr)] at h
      rcases contiguous_error es (idx + 1) (some e.revision) x h (.inr ⟨by rw [hr], by omega⟩) hs'.2
        (fun a ha p hp' => by cases hp'; exact hs'.1 a ha) with ⟨n, hx, hn⟩ | ⟨a, b, hx, hb, hab, hg⟩
      · refine .inl ⟨n, hx, .inr ?_⟩
        rcases hn with ⟨hn, e', he', hr'⟩ | hn
        · cases hn
          have : 0 < (es.map Entry.revision).count e.revision :=
            List.count_pos_iff.2 (List.mem_map.2 ⟨e', he', hr'⟩)
          simp only [List.map_cons, List.count_cons_self]
          omega
        · simp only [List.map_cons, List.count_cons]
          omega
      · refine .inr ⟨a, b, hx, ?_, by omega, ?_⟩
        · obtain ⟨e', he', hb⟩ := hb
          exact ⟨e', List.mem_cons_of_mem _ he', hb⟩
        · rcases hg with hg | ⟨hg, hg'⟩
          · exact .inl hg
          · right
            constructor
            · intro e' he'
              rcases List.mem_cons.1 he' with rfl | he'
              · omega
              · exact hg e' he'
            · intro m hm hma
              by_cases hm1 : m = idx + 1
              · exact ⟨e, List.mem_cons_self, by omega⟩
              · obtain ⟨e', he', h'⟩ := hg' m (by omega) hma
                exact ⟨e', List.mem_cons_of_mem _ he', h'⟩
    · rw [if_pos hr] at h
      by_cases hd : prev = some e.revision
      · rw [if_pos hd] at h
        cases h
        exact .inl ⟨e.revision, rfl, .inl ⟨hd, e, List.mem_cons_self, rfl⟩⟩
      · rw [if_neg hd] at h
        cases h
        refine .inr ⟨idx + 1, e.revision, rfl, ⟨e, List.mem_cons_self, rfl⟩, by omega, ?_⟩
        by_cases h0 : e.revision = 0
        · exact .inl h0
        · have hgt : idx + 1 < e.revision := by
            rcases hp with ⟨_, h0'⟩ | ⟨hp, h0'⟩
            · omega
            · have := hle e List.mem_cons_self idx hp
              have hne : e.revision ≠ idx := fun hc => hd (by rw [hp, hc])
              omega
          refine .inr ⟨?_, fun m h1 h2 => by omega⟩
          intro e' he'
          rcases List.mem_cons.1 he' with rfl | he'
          · exact hr
          · have := hs'.1 e' he'
            omega

theorem range'_pairwise_perm {l : List Nat} {k : Nat} (hs : l.Pairwise (· ≤ ·))
    (hp : l.Perm (List.range' 1 k)) : l = List.range' 1 k := by
  refine hp.eq_of_pairwise (le := fun a b => a ≤ b) ?_ hs ?_
  · intro a b _ _ h1 h2; omega
  · exact List.pairwise_le_range'

/-! ### Discriminants -/

theorem nextFree_ge (used : List Nat) : ∀ fuel next, next ≤ nextFree used fuel next
  | 0, _ => Nat.le_refl _
  | fuel + 1, next => by
    unfold nextFree
    split
    · exact Nat.le_trans (Nat.le_succ _) (nextFree_ge used fuel (next + 1))
    · exact Nat.le_refl _

theorem nextFree_below (used : List Nat) : ∀ fuel next m, next ≤ m → m < nextFree used fuel next → m ∈ used
  | 0, next, m, h1, h2 => by simp only [nextFree] at h2; omega
  | fuel + 1, next, m, h1, h2 => by
    unfold nextFree at h2
    split at h2
    · rename_i hc
      by_cases hm : m = next
      · subst hm; simpa using hc
      · exact nextFree_below used fuel (next + 1) m (by omega) h2
    · omega

theorem nextFree_fresh (used : List Nat) : ∀ fuel next,
    (used.filter (fun m => decide (next ≤ m))).length < fuel → nextFree used fuel next ∉ used
  | 0, _, h => by omega
  | fuel + 1, next, h => by
    unfold nextFree
    split
    · rename_i hc
      refine nextFree_fresh used fuel (next + 1) ?_
      have hmem : next ∈ used.filter (fun m => decide (next ≤ m)) := by
        simp only [List.mem_filter]
        exact ⟨by simpa using hc, by simp⟩
      have heq : used.filter (fun m => decide (next + 1 ≤ m)) =
          (used.filter (fun m => decide (next ≤ m))).filter (fun m => decide (next + 1 ≤ m)) := by
        rw [List.filter_filter]
        congr 1
        funext m
        rw [Bool.eq_iff_iff]
        simp only [Bool.and_eq_true, decide_eq_true_eq]
        omega
      have hlt : ((used.filter (fun m => decide (next ≤ m))).filter
          (fun m => decide (next + 1 ≤ m))).length < (used.filter (fun m => decide (next ≤ m))).length := by
        refine List.length_filter_lt_length_iff_exists.2 ⟨next, hmem, by simp⟩
      rw [heq]
      omega
    · rename_i hc
      simpa using hc

theorem nextFree_not_mem (used : List Nat) (next : Nat) :
    nextFree used (used.length + 1) next ∉ used :=
  nextFree_fresh used _ next (Nat.lt_succ_of_le (List.length_filter_le _ _))

theorem nodup_reverse_iff {l : List α} : l.reverse.Nodup ↔ l.Nodup := (List.reverse_perm l).nodup_iff

theorem inj_of_nodup_map (f : α → β) {l : List α} (h : (l.map f).Nodup) {a b : α} (ha : a ∈ l)
    (hb : b ∈ l) (hab : f a = f b) : a = b := by
  induction l with
  | nil => cases ha
  | cons x xs ih =>
    simp only [List.map_cons, List.nodup_cons] at h
    rcases List.mem_cons.1 ha with ha' | ha' <;> rcases List.mem_cons.1 hb with hb' | hb'
    · rw [ha', hb']
    · exact absurd (List.mem_map.2 ⟨b, hb', by rw [← hab, ha']⟩) h.1
    · exact absurd (List.mem_map.2 ⟨a, ha', by rw [hab, hb']⟩) h.1
    · exact ih h.2 ha' hb'

theorem lookup_eq_some_of_mem [BEq α] [LawfulBEq α] : ∀ (l : List (α × β)),
    (l.map (·.1)).Nodup → ∀ a b, (a, b) ∈ l → l.lookup a = some b
  | [], _, _, _, h => by cases h
  | (k, w) :: l, hn, a, b, h => by
    simp only [List.map_cons, List.nodup_cons] at hn
    rcases List.mem_cons.1 h with h | h
    · cases h; simp [List.lookup]
    · have hne : a ≠ k := fun hc => hn.1 (hc ▸ List.mem_map.2 ⟨(a, b), h, rfl⟩)
      rw [List.lookup_cons, beq_false_of_ne hne]
      exact lookup_eq_some_of_mem l hn.2 a b h

theorem mem_of_lookup_eq_some [BEq α] [LawfulBEq α] : ∀ (l : List (α × β)) (a : α) (b : β),
    l.lookup a = some b → (a, b) ∈ l
  | [], _, _, h => by cases h
  | (k, w) :: l, a, b, h => by
    rw [List.lookup_cons] at h
    by_cases hk : a = k
    · subst hk
      simp at h
      exact h ▸ List.mem_cons_self
    · rw [beq_false_of_ne hk] at h
      exact List.mem_cons_of_mem _ (mem_of_lookup_eq_some l a b h)

theorem lookup_eq_none_iff_keys [BEq α] [LawfulBEq α] (l : List (α × β)) (a : α) :
    l.lookup a = none ↔ a ∉ l.map (·.1) := by
  rw [List.lookup_eq_none_iff]
  simp only [List.mem_map, not_exists, not_and]
  constructor
  · intro h p hp hc
    have := h p hp
    simp [hc] at this
  · intro h p hp
    have := h p hp
    simpa using fun hc => this hc.symm

/-- The explicit discriminants at `r`. -/
def explicitDiscs (r : Nat) (vs : List VariantSig) : Discs :=
  (vs.filter (·.existsAt r)).filterMap fun v => (v.overrideAt r).map (v.ident, ·)

theorem explicitDiscs_cons (r : Nat) (v : VariantSig) (vs : List VariantSig) :
    explicitDiscs r (v :: vs) =
      if v.existsAt r then
        match v.overrideAt r with
        | some d => (v.ident, d) :: explicitDiscs r vs
        | none => explicitDiscs r vs
      else explicitDiscs r vs := by
  unfold explicitDiscs
  by_cases h : v.existsAt r
  · rw [List.filter_cons_of_pos (by simpa using h), if_pos h, List.filterMap_cons]
    cases v.overrideAt r <;> rfl
  · rw [List.filter_cons_of_neg (by simpa using h), if_neg h]

theorem gatherOverrides_eq (r : Nat) : ∀ (vs : List VariantSig) (discs : Discs) (used : List Nat),
    gatherOverrides r vs discs used =
      if ((explicitDiscs r vs).map (·.2)).Nodup ∧ ∀ d ∈ (explicitDiscs r vs).map (·.2), d ∉ used then
        .ok ((explicitDiscs r vs).reverse ++ discs, ((explicitDiscs r vs).map (·.2)).reverse ++ used)
      else .error .discriminantTwice
  | [], discs, used => by simp [gatherOverrides, explicitDiscs]
  | v :: vs, discs, used => by
    unfold gatherOverrides
    rw [explicitDiscs_cons]
    by_cases h : v.existsAt r
    · rw [if_pos h, if_neg (by simp [h])]
      unfold VariantSig.overrideAt
      rcases ho : v.opts.overrides.lookup r with _ | _ | d
      · exact gatherOverrides_eq r vs discs used
      · exact gatherOverrides_eq r vs discs used
      · simp only [Option.join_some]
        by_cases hd : d ∈ used
        · rw [if_pos (by simpa using hd), if_neg]
          intro hc
          exact hc.2 d (by simp) hd
        · rw [if_neg (by simpa using hd), gatherOverrides_eq r vs]
          by_cases hc : ((explicitDiscs r vs).map (·.2)).Nodup ∧
              ∀ x ∈ (explicitDiscs r vs).map (·.2), x ∉ d :: used
          · rw [if_pos hc, if_pos]
            · simp
            · simp only [List.map_cons, List.nodup_cons]
              refine ⟨⟨fun hm => hc.2 d hm (by simp), hc.1⟩, ?_⟩
              intro x hx
              rcases List.mem_cons.1 hx with rfl | hx
              · exact hd
              · exact fun hu => hc.2 x hx (by simp [hu])
          · rw [if_neg hc, if_neg]
            intro hc'
            simp only [List.map_cons, List.nodup_cons] at hc'
            refine hc ⟨hc'.1.2, fun x hx hu => ?_⟩
            rcases List.mem_cons.1 hu with rfl | hu
            · exact hc'.1.1 hx
            · exact hc'.2 x (by simp [hx]) hu
    · rw [if_neg h, if_pos (by simp [h])]
      exact gatherOverrides_eq r vs discs used

/-- `k` successive results of the search for a free number. -/
def freeSeq (used : List Nat) (next : Nat) : Nat → List Nat
  | 0 => []
  | k + 1 =>
    let d := nextFree used (used.length + 1) next
    d :: freeSeq (d :: used) d k

theorem freeSeq_length (used : List Nat) (next k : Nat) : (freeSeq used next k).length = k := by
  induction k generalizing used next with
  | zero => rfl
  | succ k ih => simp [freeSeq, ih]

theorem freeSeq_spec : ∀ (k : Nat) (used : List Nat) (next : Nat),
    (∀ d ∈ freeSeq used next k, next ≤ d ∧ d ∉ used ∧
      ∀ m, next ≤ m → m < d → m ∈ used ∨ m ∈ freeSeq used next k) ∧
    (freeSeq used next k).Pairwise (· < ·)
  | 0, _, _ => by simp [freeSeq]
  | k + 1, used, next => by
    have hd := nextFree_not_mem used next
    have hge := nextFree_ge used (used.length + 1) next
    have hb := nextFree_below used (used.length + 1) next
    unfold freeSeq
    simp only []
    generalize nextFree used (used.length + 1) next = d at hd hge hb
    obtain ⟨ih, ihp⟩ := freeSeq_spec k (d :: used) d
    have hlt : ∀ x ∈ freeSeq (d :: used) d k, d < x := by
      intro x hx
      have h := ih x hx
      have : x ≠ d := fun hc => h.2.1 (by simp [hc])
      omega
    refine ⟨?_, List.pairwise_cons.2 ⟨hlt, ihp⟩⟩
    intro x hx
    rcases List.mem_cons.1 hx with rfl | hx
    · exact ⟨hge, hd, fun m h1 h2 => .inl (hb m h1 h2)⟩
    · have h := ih x hx
      refine ⟨by omega, fun hc => h.2.1 (by simp [hc]), fun m h1 h2 => ?_⟩
      by_cases hm : d ≤ m
      · rcases h.2.2 m hm h2 with h' | h'
        · rcases List.mem_cons.1 h' with rfl | h'
          · exact .inr (by simp)
          · exact .inl h'
        · exact .inr (by simp [h'])
      · exact .inl (hb m h1 (by omega))

/-- The live variants without an entry in `discs`. -/
def unassigned (r : Nat) (vs : List VariantSig) (discs : Discs) : List VariantSig :=
  vs.filter fun v => v.existsAt r && (discs.lookup v.ident).isNone

theorem assignDiscs_eq (r : Nat) : ∀ (vs : List VariantSig) (discs : Discs) (used : List Nat) (next : Nat),
    ((vs.filter (·.existsAt r)).map (·.ident)).Nodup →
    assignDiscs r vs discs used next =
      (((unassigned r vs discs).map (·.ident)).zip
        (freeSeq used next (unassigned r vs discs).length)).reverse ++ discs
  | [], _, _, _, _ => by simp [assignDiscs, unassigned]
  | v :: vs, discs, used, next, hn => by
    unfold assignDiscs
    by_cases h : v.existsAt r
    · rw [List.filter_cons_of_pos (by simpa using h), List.map_cons, List.nodup_cons] at hn
      rw [if_neg (by simp [h])]
      by_cases hl : (discs.lookup v.ident).isSome
      · rw [if_pos hl, assignDiscs_eq r vs discs used next hn.2]
        have : unassigned r (v :: vs) discs = unassigned r vs discs := by
          unfold unassigned
          rw [List.filter_cons_of_neg]
          have : (discs.lookup v.ident).isNone = false := by
            cases hq : discs.lookup v.ident <;> simp_all
          simp [this]
        rw [this]
      · rw [if_neg hl]
        have hnone : discs.lookup v.ident = none := by
          cases hq : discs.lookup v.ident with
          | none => rfl
          | some d => rw [hq] at hl; exact absurd rfl hl
        have h1 : unassigned r (v :: vs) discs = v :: unassigned r vs discs := by
          unfold unassigned
          rw [List.filter_cons_of_pos]
          simp [h, hnone]
        have h2 : ∀ d, unassigned r vs ((v.ident, d) :: discs) = unassigned r vs discs := by
          intro d
          unfold unassigned
          refine List.filter_congr ?_
          intro w hw
          by_cases hw' : w.existsAt r
          · have hne : w.ident ≠ v.ident := by
              intro hc
              exact hn.1 (hc ▸ List.mem_map.2 ⟨w, List.mem_filter.2 ⟨hw, hw'⟩, rfl⟩)
            rw [List.lookup_cons, beq_false_of_ne hne]
          · simp [hw']
        simp only []
        rw [assignDiscs_eq r vs _ _ _ hn.2, h1, h2]
        simp [freeSeq]
    · rw [List.filter_cons_of_neg (by simpa using h)] at hn
      rw [if_pos (by simp [h]), assignDiscs_eq r vs discs used next hn]
      have : unassigned r (v :: vs) discs = unassigned r vs discs := by
        unfold unassigned
        rw [List.filter_cons_of_neg]
        simp [h]
      rw [this]

theorem mem_explicitDiscs (r : Nat) (vs : List VariantSig) (n : String) (d : Nat) :
    (n, d) ∈ explicitDiscs r vs ↔
      ∃ v ∈ vs, v.existsAt r = true ∧ v.ident = n ∧ v.overrideAt r = some d := by
  unfold explicitDiscs
  simp only [List.mem_filterMap, List.mem_filter, Option.map_eq_some_iff, Prod.mk.injEq]
  constructor
  · rintro ⟨v, ⟨h1, h2⟩, a, h3, h4, rfl⟩
    exact ⟨v, h1, h2, h4, h3⟩
  · rintro ⟨v, h1, h2, h3, h4⟩
    exact ⟨v, ⟨h1, h2⟩, d, h4, h3, rfl⟩

theorem explicitDiscs_nodup (r : Nat) : ∀ vs : List VariantSig,
    ((explicitDiscs r vs).map (·.2)).Nodup ↔ OverridesCompatible r vs
  | [] => by simp [explicitDiscs, OverridesCompatible]
  | v :: vs => by
    have ih := explicitDiscs_nodup r vs
    unfold OverridesCompatible at ih ⊢
    rw [explicitDiscs_cons, List.pairwise_cons, ← ih]
    by_cases h : v.existsAt r
    · rw [if_pos h]
      cases ho : v.overrideAt r with
      | none => simp
      | some d =>
        simp only [List.map_cons, List.nodup_cons]
        refine and_congr_left fun _ => ?_
        constructor
        · intro hm w hw _ hwa d' hd' hc
          cases hd'
          exact hm (List.mem_map.2 ⟨(w.ident, d), (mem_explicitDiscs ..).2 ⟨w, hw, hwa, rfl, hc⟩, rfl⟩)
        · intro hm hc
          obtain ⟨⟨n, d'⟩, hc', rfl⟩ := List.mem_map.1 hc
          obtain ⟨w, hw, hwa, _, hwd⟩ := (mem_explicitDiscs ..).1 hc'
          exact hm w hw h hwa _ rfl hwd
    · rw [if_neg h]
      simp [h]

theorem explicitDiscs_keys_sublist (r : Nat) : ∀ vs : List VariantSig,
    ((explicitDiscs r vs).map (·.1)).Sublist ((vs.filter (·.existsAt r)).map (·.ident))
  | [] => by simp [explicitDiscs]
  | v :: vs => by
    have ih := explicitDiscs_keys_sublist r vs
    rw [explicitDiscs_cons]
    by_cases h : v.existsAt r
    · rw [if_pos h, List.filter_cons_of_pos (by simpa using h)]
      cases v.overrideAt r with
      | none => exact ih.cons _
      | some d => exact ih.cons_cons _
    · rw [if_neg h, List.filter_cons_of_neg (by simpa using h)]
      exact ih

/-- The numbers given to the variants without an explicit discriminant. -/
def implicitDiscs (r : Nat) (vs : List VariantSig) : Discs :=
  ((unassigned r vs (explicitDiscs r vs).reverse).map (·.ident)).zip
    (freeSeq (((explicitDiscs r vs).map (·.2)).reverse) 0
      (unassigned r vs (explicitDiscs r vs).reverse).length)

theorem calcDiscs_eq (r : Nat) (vs : List VariantSig) (hn : DistinctVariants r vs) :
    calcDiscs r vs = if ((explicitDiscs r vs).map (·.2)).Nodup then
      .ok ((implicitDiscs r vs).reverse ++ (explicitDiscs r vs).reverse)
      else .error .discriminantTwice := by
  unfold calcDiscs
  rw [gatherOverrides_eq]
  by_cases h : ((explicitDiscs r vs).map (·.2)).Nodup
  · rw [if_pos ⟨h, by simp⟩, if_pos h]
    simp only [List.append_nil]
    rw [assignDiscs_eq r vs _ _ _ hn]
    rfl
  · rw [if_neg (fun hc => h hc.1), if_neg h]

theorem calcDiscs_ok_iff (r : Nat) (vs : List VariantSig) (hn : DistinctVariants r vs) :
    (∃ d, calcDiscs r vs = .ok d) ↔ OverridesCompatible r vs := by
  rw [calcDiscs_eq r vs hn, ← explicitDiscs_nodup]
  split <;> simp_all

theorem explicit_lookup (r : Nat) (vs : List VariantSig) (hn : DistinctVariants r vs)
    (v : VariantSig) (hv : v ∈ vs) (ha : v.existsAt r = true) :
    (explicitDiscs r vs).reverse.lookup v.ident = v.overrideAt r := by
  have hk : (((explicitDiscs r vs).reverse).map (·.1)).Nodup := by
    rw [List.map_reverse, nodup_reverse_iff]
    exact hn.sublist (explicitDiscs_keys_sublist r vs)
  cases ho : v.overrideAt r with
  | some d =>
    exact lookup_eq_some_of_mem _ hk _ _ (by simpa using (mem_explicitDiscs r vs v.ident d).2 ⟨v, hv, ha, rfl, ho⟩)
  | none =>
    rw [lookup_eq_none_iff_keys]
    intro hc
    obtain ⟨⟨n, d⟩, hm, hnm⟩ := List.mem_map.1 hc
    obtain ⟨w, hw, hwa, hwn, hwo⟩ := (mem_explicitDiscs ..).1 (List.mem_reverse.1 hm)
    have : w = v := by
      refine inj_of_nodup_map _ hn (List.mem_filter.2 ⟨hw, hwa⟩) (List.mem_filter.2 ⟨hv, ha⟩) ?_
      rw [hwn, ← hnm]
    rw [this, ho] at hwo
    cases hwo

theorem unassigned_eq (r : Nat) (vs : List VariantSig) (hn : DistinctVariants r vs) :
    unassigned r vs (explicitDiscs r vs).reverse =
      (vs.filter (·.existsAt r)).filter (fun v => (v.overrideAt r).isNone) := by
  unfold unassigned
  rw [List.filter_filter]
  refine List.filter_congr ?_
  intro v hv
  by_cases ha : v.existsAt r = true
  · rw [explicit_lookup r vs hn v hv ha, ha, Bool.true_and, Bool.and_true]
  · simp [ha]

theorem keys_zip_freeSeq {α : Type} (l : List α) (used : List Nat) (next : Nat) (f : α → String) :
    (((l.map f).zip (freeSeq used next l.length)).map (·.1)) = l.map f := by
  rw [List.map_fst_zip]
  simp [freeSeq_length]

theorem vals_zip_freeSeq {α : Type} (l : List α) (used : List Nat) (next : Nat) (f : α → String) :
    (((l.map f).zip (freeSeq used next l.length)).map (·.2)) = freeSeq used next l.length := by
  rw [List.map_snd_zip]
  simp [freeSeq_length]

structure DiscFacts (r : Nat) (vs : List VariantSig) (D : Discs) : Prop where
  eq : D = (implicitDiscs r vs).reverse ++ (explicitDiscs r vs).reverse
  compat : ((explicitDiscs r vs).map (·.2)).Nodup
  keys : (D.map (·.1)).Nodup
  vals : (D.map (·.2)).Nodup

theorem discFacts (r : Nat) (vs : List VariantSig) (hn : DistinctVariants r vs) (D : Discs)
    (h : calcDiscs r vs = .ok D) : DiscFacts r vs D := by
  rw [calcDiscs_eq r vs hn] at h
  split at h
  · rename_i hc
    cases h
    have hun := unassigned_eq r vs hn
    refine ⟨rfl, hc, ?_, ?_⟩
    · rw [List.map_append, List.map_reverse, List.map_reverse, List.nodup_append]
      refine ⟨?_, ?_, ?_⟩
      · rw [nodup_reverse_iff]
        unfold implicitDiscs
        rw [keys_zip_freeSeq, hun]
        exact hn.sublist ((List.filter_sublist).map _)
      · rw [nodup_reverse_iff]
        exact hn.sublist (explicitDiscs_keys_sublist r vs)
      · intro a ha b hb hab
        subst hab
        rw [List.mem_reverse] at ha hb
        unfold implicitDiscs at ha
        rw [keys_zip_freeSeq, hun] at ha
        obtain ⟨v, hv, rfl⟩ := List.mem_map.1 ha
        obtain ⟨hv1, hv2⟩ := List.mem_filter.1 hv
        obtain ⟨hv3, hv4⟩ := List.mem_filter.1 hv1
        obtain ⟨⟨n, d⟩, hm, hnm⟩ := List.mem_map.1 hb
        have hl := explicit_lookup r vs hn v hv3 hv4
        have : (explicitDiscs r vs).reverse.lookup v.ident = none := by
          rw [hl]; simpa using hv2
        rw [lookup_eq_none_iff_keys] at this
        exact this (List.mem_map.2 ⟨(n, d), List.mem_reverse.2 hm, hnm⟩)
    · rw [List.map_append, List.map_reverse, List.map_reverse, List.nodup_append]
      unfold implicitDiscs
      rw [vals_zip_freeSeq]
      refine ⟨?_, ?_, ?_⟩
      · rw [nodup_reverse_iff]
        exact (freeSeq_spec _ _ _).2.imp (fun h => Nat.ne_of_lt h)
      · rw [nodup_reverse_iff]
        exact hc
      · intro a ha b hb hab
        subst hab
        exact ((freeSeq_spec _ _ _).1 a (List.mem_reverse.1 ha)).2.1 hb
  · cases h

theorem disc_total (r : Nat) (vs : List VariantSig) (hn : DistinctVariants r vs) (D : Discs)
    (h : calcDiscs r vs = .ok D) (v : VariantSig) (hv : v ∈ vs) (ha : v.existsAt r = true) :
    ∃ d, (v.ident, d) ∈ D := by
  have F := discFacts r vs hn D h
  rw [F.eq]
  cases ho : v.overrideAt r with
  | some d => exact ⟨d, by simp [(mem_explicitDiscs r vs v.ident d).2 ⟨v, hv, ha, rfl, ho⟩]⟩
  | none =>
    have hmem : v.ident ∈ (implicitDiscs r vs).map (·.1) := by
      unfold implicitDiscs
      rw [keys_zip_freeSeq, unassigned_eq r vs hn]
      exact List.mem_map.2 ⟨v, List.mem_filter.2 ⟨List.mem_filter.2 ⟨hv, ha⟩, by simp [ho]⟩, rfl⟩
    obtain ⟨⟨n, d⟩, hm, hnm⟩ := List.mem_map.1 hmem
    exact ⟨d, by simp at hnm; subst hnm; simp [hm]⟩

theorem disc_only (r : Nat) (vs : List VariantSig) (hn : DistinctVariants r vs) (D : Discs)
    (h : calcDiscs r vs = .ok D) (n : String) (d : Nat) (hm : (n, d) ∈ D) :
    ∃ v ∈ vs, v.existsAt r = true ∧ v.ident = n := by
  have F := discFacts r vs hn D h
  rw [F.eq] at hm
  rcases List.mem_append.1 hm with hm | hm
  · have : n ∈ (implicitDiscs r vs).map (·.1) := List.mem_map.2 ⟨_, List.mem_reverse.1 hm, rfl⟩
    unfold implicitDiscs at this
    rw [keys_zip_freeSeq, unassigned_eq r vs hn] at this
    obtain ⟨v, hv, hvn⟩ := List.mem_map.1 this
    obtain ⟨hv1, _⟩ := List.mem_filter.1 hv
    obtain ⟨hv3, hv4⟩ := List.mem_filter.1 hv1
    exact ⟨v, hv3, hv4, hvn⟩
  · obtain ⟨v, hv, ha, hvn, _⟩ := (mem_explicitDiscs ..).1 (List.mem_reverse.1 hm)
    exact ⟨v, hv, ha, hvn⟩

theorem gatherOverrides_filter (r : Nat) (vs : List VariantSig) (discs : Discs) (used : List Nat) :
    gatherOverrides r (vs.filter (·.existsAt r)) discs used = gatherOverrides r vs discs used := by
  induction vs generalizing discs used with
  | nil => rfl
  | cons v vs ih =>
    by_cases h : v.existsAt r
    · rw [List.filter_cons_of_pos (by simpa using h)]
      unfold gatherOverrides
      simp only [ih]
    · rw [List.filter_cons_of_neg (by simpa using h), ih]
      conv => rhs; unfold gatherOverrides
      rw [if_pos (by simp [h])]

theorem assignDiscs_filter (r : Nat) (vs : List VariantSig) (discs : Discs) (used : List Nat) (next : Nat) :
    assignDiscs r (vs.filter (·.existsAt r)) discs used next = assignDiscs r vs discs used next := by
  induction vs generalizing discs used next with
  | nil => rfl
  | cons v vs ih =>
    by_cases h : v.existsAt r
    · rw [List.filter_cons_of_pos (by simpa using h)]
      unfold assignDiscs
      simp only [ih]
    · rw [List.filter_cons_of_neg (by simpa using h), ih]
      conv => rhs; unfold assignDiscs
      rw [if_pos (by simp [h])]

/-! ### Field options -/

/-- Set the option, whatever was there. -/
def FieldOptions.set (o : FieldOptions) : FieldOption → FieldOptions
  | .start n => { o with start := some n }
  | .stop n => { o with stop := some n }
  | .convert f => { o with convert := some f }
  | .default f => { o with default := some f }
  | .indexedMap => { o with indexedMap := true }
  | .indexedSeq => { o with indexedSeq := true }
  | .indexedSet => { o with indexedSet := true }
  | .fixed => { o with fixed := true }
  | .specialised => { o with specialised := true }

/-- The keyword was seen. -/
def FieldOptions.seen (o : FieldOptions) : FieldKind → Bool
  | .start => o.start.isSome
  | .stop => o.stop.isSome
  | .convert => o.convert.isSome
  | .default => o.default.isSome
  | .indexedMap => o.indexedMap
  | .indexedSeq => o.indexedSeq
  | .indexedSet => o.indexedSet
  | .fixed => o.fixed
  | .specialised => o.specialised

def FieldOptions.anyIndexed (o : FieldOptions) : Bool := o.indexedMap || o.indexedSeq || o.indexedSet

theorem FieldOptions.step_ok (o : FieldOptions) (x : FieldOption) (o' : FieldOptions) :
    o.step x = .ok o' ↔
      o' = o.set x ∧ o.seen x.kind = false ∧ (x.kind.isIndexed = true → o.anyIndexed = false) := by
  rcases o with ⟨s, e, c, d, m, q, t, f, p⟩
  cases x <;>
    simp only [step, set, seen, anyIndexed, FieldOption.kind, FieldKind.isIndexed] <;>
    grind

theorem FieldOptions.seen_set (o : FieldOptions) (x : FieldOption) (k : FieldKind) :
    (o.set x).seen k = (o.seen k || decide (k = x.kind)) := by
  cases x <;> cases k <;> simp [set, seen, FieldOption.kind]

theorem FieldOptions.anyIndexed_set (o : FieldOptions) (x : FieldOption) :
    (o.set x).anyIndexed = (o.anyIndexed || x.kind.isIndexed) := by
  cases x <;> simp [set, anyIndexed, FieldOption.kind, FieldKind.isIndexed]

theorem FieldOptions.has_set (o : FieldOptions) (x y : FieldOption) :
    (o.set x).Has y ↔ y = x ∨ (o.Has y ∧ y.kind ≠ x.kind) := by
  cases x <;> cases y <;> simp [set, Has, FieldOption.kind] <;> exact eq_comm

theorem FieldOptions.steps_ok : ∀ (xs : List FieldOption) (o o' : FieldOptions),
    o.steps xs = .ok o' ↔ o' = xs.foldl set o ∧ (xs.map FieldOption.kind).Nodup ∧
      (∀ k ∈ xs.map FieldOption.kind, o.seen k = false) ∧
      ((xs.map FieldOption.kind).filter FieldKind.isIndexed).length + o.anyIndexed.toNat ≤ 1
  | [], o, o' => by
    have : o.anyIndexed.toNat ≤ 1 := by cases o.anyIndexed <;> simp
    simp [steps, this]
    exact eq_comm
  | x :: xs, o, o' => by
    unfold steps
    cases hx : o.step x with
    | error e =>
      refine ⟨fun h => (by cases h), ?_⟩
      rintro ⟨_, h2, h3, h4⟩
      have := (FieldOptions.step_ok o x (o.set x)).2 ⟨rfl, h3 _ (by simp), fun hi => by
        simp only [List.map_cons, List.filter_cons_of_pos hi, List.length_cons] at h4
        cases ha : o.anyIndexed
        · rfl
        · rw [ha] at h4; simp at h4⟩
      rw [this] at hx; cases hx
    | ok o1 =>
      obtain ⟨rfl, h2, h3⟩ := (FieldOptions.step_ok o x o1).1 hx
      simp only []
      rw [FieldOptions.steps_ok xs]
      simp only [List.foldl_cons, List.map_cons, List.nodup_cons, List.mem_cons, forall_eq_or_imp, h2,
        true_and, FieldOptions.seen_set, Bool.or_eq_false_iff, decide_eq_false_iff_not,
        FieldOptions.anyIndexed_set]
      have hcount : (((xs.map FieldOption.kind).filter FieldKind.isIndexed).length +
          (o.anyIndexed || x.kind.isIndexed).toNat) =
          ((x.kind :: xs.map FieldOption.kind).filter FieldKind.isIndexed).length + o.anyIndexed.toNat := by
        by_cases hi : x.kind.isIndexed = true
        · rw [List.filter_cons_of_pos hi, h3 hi, hi]
          simp
        · rw [List.filter_cons_of_neg hi]
          simp only [Bool.not_eq_true] at hi
          rw [hi]; simp
      rw [hcount]
      constructor
      · rintro ⟨a, b, c, d⟩
        exact ⟨a, ⟨fun hm => (c _ hm).2 rfl, b⟩, fun k hk => (c k hk).1, d⟩
      · rintro ⟨a, ⟨b1, b2⟩, c, d⟩
        exact ⟨a, b2, fun k hk => ⟨c k hk, fun hc => b1 (hc ▸ hk)⟩, d⟩

theorem FieldOptions.has_foldl : ∀ (xs : List FieldOption) (o : FieldOptions) (y : FieldOption),
    (xs.map FieldOption.kind).Nodup →
    ((xs.foldl set o).Has y ↔ y ∈ xs ∨ (o.Has y ∧ y.kind ∉ xs.map FieldOption.kind))
  | [], o, y, _ => by simp
  | x :: xs, o, y, h => by
    simp only [List.map_cons, List.nodup_cons] at h
    rw [List.foldl_cons, FieldOptions.has_foldl xs _ y h.2, FieldOptions.has_set]
    simp only [List.mem_cons, List.map_cons, not_or]
    constructor
    · rintro (h' | ⟨rfl | ⟨h1, h2⟩, h3⟩)
      · exact .inl (.inr h')
      · exact .inl (.inl rfl)
      · exact .inr ⟨h1, h2, h3⟩
    · rintro ((rfl | h') | ⟨h1, h2, h3⟩)
      · exact .inr ⟨.inl rfl, h.1⟩
      · exact .inl h'
      · exact .inr ⟨.inr ⟨h1, h2⟩, h3⟩

theorem FieldOptions.seen_foldl : ∀ (xs : List FieldOption) (o : FieldOptions) (k : FieldKind),
    (xs.foldl set o).seen k = (o.seen k || decide (k ∈ xs.map FieldOption.kind))
  | [], o, k => by simp
  | x :: xs, o, k => by
    rw [List.foldl_cons, FieldOptions.seen_foldl xs, FieldOptions.seen_set, Bool.eq_iff_iff]
    simp [or_assoc]

theorem FieldOptions.has_default (y : FieldOption) : ¬ ({} : FieldOptions).Has y := by
  cases y <;> simp [Has]

theorem FieldOptions.seen_default (k : FieldKind) : ({} : FieldOptions).seen k = false := by
  cases k <;> rfl

end Revision
