import Verif.Proofs.Schema

/-! # C46, C47, C52: what a declaration may say, and what it means -/

namespace Revision

/-! ## C46 Revision history validation -/

/-- Entries in the `revision(N, …)` syntax are accepted exactly when their numbers, in whatever
order, are `1 … N` once each. -/
theorem C46_accepted_iff (es : List Entry) :
    (∃ h, resolveHistory none es = .ok h) ↔
      (es.map Entry.revision).Perm (List.range' 1 es.length) := by
  cases es with
  | nil => simp [resolveHistory]
  | cons e es =>
    have hp := (sortEntries_perm (e :: es))
    have hl := hp.length_eq
    have hm := hp.map Entry.revision
    constructor
    · rintro ⟨h, hh⟩
      simp only [resolveHistory] at hh
      cases hc : contiguous 0 none (sortEntries (e :: es)) with
      | error x => rw [hc] at hh; cases hh
      | ok u =>
        have := (contiguous_ok _ 0 none).1 hc
        rw [hl] at this
        exact hm.symm.trans (this ▸ .refl _)
    · intro h
      refine ⟨sortEntries (e :: es), ?_⟩
      simp only [resolveHistory]
      have hs : (sortEntries (e :: es)).map Entry.revision = List.range' 1 (e :: es).length :=
        range'_pairwise_perm (by rw [List.pairwise_map]; exact sortEntries_pairwise _) (hm.trans h)
      rw [(contiguous_ok _ 0 none).2 (by rw [hs, hl])]

example : ((([⟨2, true, true⟩, ⟨1, false, false⟩] : List Entry)).map Entry.revision).Perm
    (List.range' 1 2) := by decide

/-- The accepted history consists of the declared entries in ascending order of revision. -/
theorem C46_history_ascending (es h : List Entry) (hh : resolveHistory none es = .ok h) :
    h.Perm es ∧ h.map Entry.revision = List.range' 1 es.length := by
  cases es with
  | nil => cases hh; simp
  | cons e es =>
    have hp := sortEntries_perm (e :: es)
    simp only [resolveHistory] at hh
    cases hc : contiguous 0 none (sortEntries (e :: es)) with
    | error x => rw [hc] at hh; cases hh
    | ok u =>
      rw [hc] at hh
      cases hh
      exact ⟨hp, by rw [(contiguous_ok _ 0 none).1 hc, hp.length_eq]⟩

example : resolveHistory none [⟨2, true, true⟩, ⟨1, false, false⟩] =
    .ok [⟨1, false, false⟩, ⟨2, true, true⟩] := by rfl

/-- When the entries are refused, the error tells the truth: a reported duplicate occurs at least
twice; a reported gap is a number that is missing while all smaller ones are there, or a zero. -/
theorem C46_error_truthful (es : List Entry) (x : MacroErr) (h : resolveHistory none es = .error x) :
    (∃ n, x = .duplicateRevision n ∧ 2 ≤ (es.map Entry.revision).count n) ∨
    (∃ a b, x = .gap a b ∧ b ∈ es.map Entry.revision ∧
      (b = 0 ∨ a ∉ es.map Entry.revision ∧ ∀ m, 0 < m → m < a → m ∈ es.map Entry.revision)) := by
  cases es with
  | nil => cases h
  | cons e es =>
    have hp := sortEntries_perm (e :: es)
    simp only [resolveHistory] at h
    cases hc : contiguous 0 none (sortEntries (e :: es)) with
    | ok u => rw [hc] at h; cases h
    | error y =>
      rw [hc] at h
      cases h
      have hmem : ∀ m, m ∈ (e :: es).map Entry.revision ↔ ∃ a ∈ sortEntries (e :: es), a.revision = m := by
        intro m
        rw [← (hp.map Entry.revision).mem_iff, List.mem_map]
      rcases contiguous_error _ 0 none x hc (.inl ⟨rfl, rfl⟩) (sortEntries_pairwise _)
        (fun _ _ _ h => by cases h) with ⟨n, hx, hn⟩ | ⟨a, b, hx, hb, hab, hg⟩
      · refine .inl ⟨n, hx, ?_⟩
        rcases hn with ⟨hn, _⟩ | hn
        · cases hn
        · rwa [(hp.map Entry.revision).count_eq] at hn
      · refine .inr ⟨a, b, hx, (hmem b).2 hb, ?_⟩
        rcases hg with hg | ⟨hg, hg'⟩
        · exact .inl hg
        · refine .inr ⟨fun hc => ?_, fun m h1 h2 => (hmem m).2 (hg' m h1 h2)⟩
          obtain ⟨y, hy, hyr⟩ := (hmem a).1 hc
          exact hg y hy hyr

example : resolveHistory none [⟨1, false, false⟩, ⟨3, false, false⟩] = .error (.gap 2 3) := by rfl
example : resolveHistory none [⟨2, false, false⟩, ⟨1, false, false⟩, ⟨2, true, false⟩] =
    .error (.duplicateRevision 2) := by rfl

/-- `revision = N` stands for `N` legacy entries and is refused for zero; the two syntaxes cannot be
mixed. -/
theorem C46_legacy_syntax (n : Nat) (es : List Entry) :
    resolveHistory (some n) es =
      if es ≠ [] then .error .mixedSyntax
      else if n = 0 then .error .zeroRevision
      else .ok ((List.range' 1 n).map Entry.legacy) := by
  cases es <;> simp [resolveHistory]

example : resolveHistory (some 2) [] = .ok [Entry.legacy 1, Entry.legacy 2] := by rfl

/-- The item's history comes from exactly one place and its last revision fits the 16-bit header. -/
theorem C46_item_iff (item direct h : List Entry) :
    itemHistory item direct = .ok h ↔
      (item = [] ∧ direct = h ∨ item = h ∧ direct = []) ∧ h ≠ [] ∧ 1 ≤ latest h ∧ latest h ≤ 65535 := by
  have hck : ∀ g : List Entry, itemHistory.check g = .ok h ↔ g = h ∧ 1 ≤ latest h ∧ latest h ≤ 65535 := by
    intro g
    unfold itemHistory.check
    split
    · rename_i hgt
      refine ⟨fun hc => (by cases hc), ?_⟩
      rintro ⟨rfl, _, h2⟩; omega
    · split
      · refine ⟨fun hc => (by cases hc), ?_⟩
        rintro ⟨rfl, h1, _⟩; omega
      · refine ⟨fun hc => ?_, ?_⟩
        · cases hc; exact ⟨rfl, by omega, by omega⟩
        · rintro ⟨rfl, _, _⟩; rfl
  have hne : 1 ≤ latest h → h ≠ [] := by
    rintro h1 rfl; simp [latest] at h1
  cases item with
  | nil =>
    cases direct with
    | nil =>
      simp only [itemHistory]
      refine ⟨fun hc => (by cases hc), ?_⟩
      rintro ⟨⟨_, rfl⟩ | ⟨rfl, _⟩, h2, _⟩ <;> exact absurd rfl h2
    | cons d ds =>
      simp only [itemHistory]
      rw [hck]
      constructor
      · rintro ⟨a, b, c⟩; exact ⟨.inl ⟨by trivial, a⟩, hne b, b, c⟩
      · rintro ⟨⟨_, a⟩ | ⟨_, a⟩, _, b, c⟩
        · exact ⟨a, b, c⟩
        · cases a
  | cons i is =>
    cases direct with
    | nil =>
      simp only [itemHistory]
      rw [hck]
      constructor
      · rintro ⟨a, b, c⟩; exact ⟨.inr ⟨a, by trivial⟩, hne b, b, c⟩
      · rintro ⟨⟨a, _⟩ | ⟨a, _⟩, _, b, c⟩
        · cases a
        · exact ⟨a, b, c⟩
    | cons d ds =>
      simp only [itemHistory]
      refine ⟨fun hc => (by cases hc), ?_⟩
      rintro ⟨⟨a, _⟩ | ⟨_, a⟩, _⟩ <;> cases a

example : itemHistory [] [Entry.legacy 1] = .ok [Entry.legacy 1] := by rfl

/-- The refusal says what is wrong: no history, two of them, or a last revision that is too large or zero. -/
theorem C46_item_error (item direct : List Entry) (x : MacroErr) :
    itemHistory item direct = .error x ↔
      (x = .missingRevision ∧ item = [] ∧ direct = []) ∨ (x = .revisionTwice ∧ item ≠ [] ∧ direct ≠ []) ∨
      ((item = [] ↔ direct ≠ []) ∧ ((x = .revisionTooLarge ∧ 65535 < latest (item ++ direct)) ∨
        (x = .zeroRevision ∧ latest (item ++ direct) = 0))) := by
  have hck : ∀ g : List Entry, itemHistory.check g = .error x ↔
      (x = .revisionTooLarge ∧ 65535 < latest g) ∨ (x = .zeroRevision ∧ latest g = 0) := by
    intro g
    unfold itemHistory.check
    by_cases h1 : latest g > 65535
    · have h2 : ¬ latest g = 0 := by omega
      simp [h1, h2, eq_comm]
    · by_cases h2 : latest g = 0 <;> simp [h1, h2, eq_comm]
  cases item <;> cases direct <;> simp [itemHistory, hck, eq_comm]

example : itemHistory [Entry.legacy 1] [Entry.legacy 1] = .error .revisionTwice ∧ itemHistory [] [] = .error .missingRevision ∧
    itemHistory [] [Entry.legacy 70000] = .error .revisionTooLarge := ⟨rfl, rfl, rfl⟩

/-! ## C47 Lifetime windows -/

/-- An item with `start` and `end` is part of revision `r` iff `start ≤ r < end`, where a missing
bound does not bound. -/
theorem C47_window (start stop : Option Nat) (r : Nat) (hr : r < 2 ^ 64 - 1) :
    existsAt start stop r = true ↔
      (∀ s, start = some s → s ≤ r) ∧ (∀ e, stop = some e → r < e) := by
  unfold existsAt
  cases start <;> cases stop <;> simp <;> omega

example : existsAt (some 2) (some 4) 3 = true ∧ existsAt (some 2) (some 4) 4 = false ∧
    existsAt (some 2) (some 4) 1 = false := by decide

/-- The revisions in which an item lives are an interval. -/
theorem C47_interval (start stop : Option Nat) (a b c : Nat) (hab : a ≤ b) (hbc : b ≤ c)
    (ha : existsAt start stop a = true) (hc : existsAt start stop c = true) :
    existsAt start stop b = true := by
  unfold existsAt at *
  simp only [Bool.and_eq_true, decide_eq_true_eq] at *
  omega

example : existsAt (some 2) (some 9) 5 = true :=
  C47_interval (some 2) (some 9) 3 5 8 (by decide) (by decide) (by decide) (by decide)

example : existsAt (some 2) none 2 = true ∧ existsAt (some 2) none 9 = true := by decide

/-- The options of a field are accepted exactly when no keyword is repeated, at most one indexed
encoding is chosen, and `end` comes with a `convert_fn`. -/
theorem C47_options_accepted_iff (os : List FieldOption) :
    (∃ o, FieldOptions.finish os = .ok o) ↔ WellFormedOptions os := by
  unfold FieldOptions.finish WellFormedOptions
  cases hs : FieldOptions.steps {} os with
  | error e =>
    refine ⟨fun ⟨o, h⟩ => (by cases h), ?_⟩
    rintro ⟨h1, h2, _⟩
    have := (FieldOptions.steps_ok os {} (os.foldl FieldOptions.set {})).2
      ⟨rfl, h1, fun k _ => FieldOptions.seen_default k, by simpa [FieldOptions.anyIndexed] using h2⟩
    rw [this] at hs; cases hs
  | ok o =>
    obtain ⟨rfl, h1, _, h4⟩ := (FieldOptions.steps_ok os {} o).1 hs
    have h2 : ((os.map FieldOption.kind).filter FieldKind.isIndexed).length ≤ 1 := by
      simpa [FieldOptions.anyIndexed] using h4
    have hst := FieldOptions.seen_foldl os {} .stop
    have hcv := FieldOptions.seen_foldl os {} .convert
    rw [FieldOptions.seen_default, Bool.false_or] at hst hcv
    simp only [FieldOptions.seen] at hst hcv
    simp only []
    rw [← Option.not_isSome, hst, hcv]
    by_cases ha : FieldKind.stop ∈ os.map FieldOption.kind <;>
      by_cases hb : FieldKind.convert ∈ os.map FieldOption.kind <;> simp only [ha, hb] <;> simp_all

example : WellFormedOptions [.start 2, .stop 4, .convert "f", .fixed] := by
  unfold WellFormedOptions; decide

/-- Accepted options record exactly what was written. -/
theorem C47_options_recorded (os : List FieldOption) (o : FieldOptions)
    (h : FieldOptions.finish os = .ok o) (x : FieldOption) : o.Has x ↔ x ∈ os := by
  unfold FieldOptions.finish at h
  cases hs : FieldOptions.steps {} os with
  | error e => rw [hs] at h; cases h
  | ok o' =>
    rw [hs] at h
    simp only [] at h
    split at h
    · cases h
    · cases h
      obtain ⟨rfl, h1, _, _⟩ := (FieldOptions.steps_ok os {} o).1 hs
      rw [FieldOptions.has_foldl os {} x h1]
      simp [FieldOptions.has_default]

example : FieldOptions.finish [.start 2, .fixed] = .ok { start := some 2, fixed := true } := by rfl

/-- A declaration is refused when a field or variant mentions a revision beyond the current one, and
only then. -/
theorem C47_bounds_checked (revision : Nat) (v : VariantSig) :
    validateVariant revision v = true ↔
      (∀ n, v.opts.start = some n → n ≤ revision) ∧ (∀ n, v.opts.stop = some n → n ≤ revision) ∧
      ∀ f ∈ v.fields, (∀ n, f.start = some n → n ≤ revision) ∧ (∀ n, f.stop = some n → n ≤ revision) := by
  have hx : ∀ o : Option Nat, exceeds o revision = false ↔ ∀ n, o = some n → n ≤ revision := by
    intro o; cases o <;> simp [exceeds]
  unfold validateVariant validateField
  simp only [Bool.and_eq_true, Bool.not_eq_true', hx, List.all_eq_true, and_assoc]

example : validateVariant 2 ⟨"A", { start := some 2 }, [{ stop := some 3 }]⟩ = false := by decide

/-! ## C52 Enum discriminants are unambiguous -/

/-- The declaration is refused iff two live variants ask for the same discriminant. -/
theorem C52_refused_iff (r : Nat) (vs : List VariantSig) (hn : DistinctVariants r vs) :
    (∃ d, calcDiscs r vs = .ok d) ↔ OverridesCompatible r vs := calcDiscs_ok_iff r vs hn

/-- Two variants, the first added in revision 2 and renumbered there. -/
private def exVs : List VariantSig :=
  [⟨"X", { start := some 2, overrides := [(2, some 1)] }, []⟩, ⟨"A", {}, []⟩, ⟨"B", {}, []⟩]

example : DistinctVariants 2 exVs ∧ OverridesCompatible 2 exVs ∧
    calcDiscs 2 exVs = .ok [("B", 2), ("A", 0), ("X", 1)] ∧
    calcDiscs 1 exVs = .ok [("B", 1), ("A", 0)] := by
  refine ⟨by unfold DistinctVariants; decide, ?_, by rfl, by rfl⟩
  rw [← explicitDiscs_nodup]; decide

/-- Every live variant has a discriminant, nothing else has. -/
theorem C52_total (r : Nat) (vs : List VariantSig) (hn : DistinctVariants r vs) (D : Discs)
    (h : calcDiscs r vs = .ok D) (n : String) :
    (∃ d, D.lookup n = some d) ↔ ∃ v ∈ vs, v.existsAt r = true ∧ v.ident = n := by
  have F := discFacts r vs hn D h
  constructor
  · rintro ⟨d, hd⟩
    exact disc_only r vs hn D h n d (mem_of_lookup_eq_some _ _ _ hd)
  · rintro ⟨v, hv, ha, rfl⟩
    obtain ⟨d, hd⟩ := disc_total r vs hn D h v hv ha
    exact ⟨d, lookup_eq_some_of_mem _ F.keys _ _ hd⟩

/-- Distinct live variants have distinct discriminants. -/
theorem C52_injective (r : Nat) (vs : List VariantSig) (hn : DistinctVariants r vs) (D : Discs)
    (h : calcDiscs r vs = .ok D) (n m : String) (d : Nat)
    (h1 : D.lookup n = some d) (h2 : D.lookup m = some d) : n = m := by
  have F := discFacts r vs hn D h
  have := inj_of_nodup_map _ F.vals (mem_of_lookup_eq_some _ _ _ h1) (mem_of_lookup_eq_some _ _ _ h2) rfl
  exact congrArg Prod.fst this

example (n m : String) (d : Nat) (h1 : ([("B", 2), ("A", 0), ("X", 1)] : Discs).lookup n = some d)
    (h2 : ([("B", 2), ("A", 0), ("X", 1)] : Discs).lookup m = some d) : n = m :=
  C52_injective 2 exVs (by unfold DistinctVariants; decide) _ rfl n m d h1 h2

/-- An explicit discriminant is honoured. -/
theorem C52_override_honoured (r : Nat) (vs : List VariantSig) (hn : DistinctVariants r vs) (D : Discs)
    (h : calcDiscs r vs = .ok D) (v : VariantSig) (hv : v ∈ vs) (ha : v.existsAt r = true) (d : Nat)
    (ho : v.overrideAt r = some d) : D.lookup v.ident = some d := by
  have F := discFacts r vs hn D h
  refine lookup_eq_some_of_mem _ F.keys _ _ ?_
  rw [F.eq]
  exact List.mem_append.2 (.inr (List.mem_reverse.2 ((mem_explicitDiscs ..).2 ⟨v, hv, ha, rfl, ho⟩)))

example (d : Nat) (v : VariantSig) (hv : v ∈ exVs) (ha : v.existsAt 2 = true) (ho : v.overrideAt 2 = some d) :
    ([("B", 2), ("A", 0), ("X", 1)] : Discs).lookup v.ident = some d :=
  C52_override_honoured 2 exVs (by unfold DistinctVariants; decide) _ rfl v hv ha d ho

/-- The other live variants are numbered upwards in declaration order … -/
theorem C52_implicit_ascending (r : Nat) (vs : List VariantSig) (hn : DistinctVariants r vs) (D : Discs)
    (h : calcDiscs r vs = .ok D) :
    (((vs.filter (·.existsAt r)).filter (fun v => (v.overrideAt r).isNone)).map
      (fun v => (D.lookup v.ident).getD 0)).Pairwise (· < ·) := by
  have F := discFacts r vs hn D h
  have hun := unassigned_eq r vs hn
  have hk := keys_zip_freeSeq (unassigned r vs (explicitDiscs r vs).reverse)
    (((explicitDiscs r vs).map (·.2)).reverse) 0 (·.ident)
  have hval : ((unassigned r vs (explicitDiscs r vs).reverse).map
      (fun v => (D.lookup v.ident).getD 0)) = (implicitDiscs r vs).map (·.2) := by
    have h1 : (implicitDiscs r vs).map (·.2) =
        (implicitDiscs r vs).map (fun p => (D.lookup p.1).getD 0) := by
      refine List.map_congr_left ?_
      rintro ⟨n, d⟩ hp
      rw [lookup_eq_some_of_mem D F.keys n d (by rw [F.eq]; simp [hp])]
      rfl
    have h2 : (implicitDiscs r vs).map (fun p => (D.lookup p.1).getD 0) =
        ((implicitDiscs r vs).map (·.1)).map (fun n => (D.lookup n).getD 0) := by
      rw [List.map_map]; rfl
    rw [h1, h2]
    unfold implicitDiscs
    rw [hk, List.map_map]
    rfl
  rw [← hun, hval]
  unfold implicitDiscs
  rw [vals_zip_freeSeq]
  exact (freeSeq_spec _ _ _).2

/-- … without leaving out a number: every smaller number is some live variant's discriminant. -/
theorem C52_implicit_least (r : Nat) (vs : List VariantSig) (hn : DistinctVariants r vs) (D : Discs)
    (h : calcDiscs r vs = .ok D) (v : VariantSig) (hv : v ∈ vs) (ha : v.existsAt r = true)
    (ho : v.overrideAt r = none) (d m : Nat) (hd : D.lookup v.ident = some d) (hm : m < d) :
    ∃ n, D.lookup n = some m := by
  have F := discFacts r vs hn D h
  have hmem := mem_of_lookup_eq_some _ _ _ hd
  rw [F.eq] at hmem
  have hd' : d ∈ (implicitDiscs r vs).map (·.2) := by
    rcases List.mem_append.1 hmem with hm | hm
    · exact List.mem_map.2 ⟨_, List.mem_reverse.1 hm, rfl⟩
    · obtain ⟨w, hw, hwa, hwn, hwo⟩ := (mem_explicitDiscs ..).1 (List.mem_reverse.1 hm)
      have : w = v := inj_of_nodup_map _ hn (List.mem_filter.2 ⟨hw, hwa⟩) (List.mem_filter.2 ⟨hv, ha⟩) hwn
      rw [this, ho] at hwo; cases hwo
  have hvals := vals_zip_freeSeq (unassigned r vs (explicitDiscs r vs).reverse)
    (((explicitDiscs r vs).map (·.2)).reverse) 0 (·.ident)
  have hd'' := hd'
  unfold implicitDiscs at hd''
  rw [hvals] at hd''
  have : m ∈ D.map (·.2) := by
    rw [F.eq, List.map_append, List.map_reverse, List.map_reverse]
    rcases ((freeSeq_spec _ _ _).1 d hd'').2.2 m (Nat.zero_le _) hm with h' | h'
    · exact List.mem_append.2 (.inr h')
    · refine List.mem_append.2 (.inl (List.mem_reverse.2 ?_))
      unfold implicitDiscs
      rw [hvals]
      exact h'
  obtain ⟨⟨n, x⟩, hx, rfl⟩ := List.mem_map.1 this
  exact ⟨n, lookup_eq_some_of_mem _ F.keys _ _ hx⟩

/-- `B` is not numbered in revision 2 and got 2: 0 and 1 are taken. -/
example : ∃ n, ([("B", 2), ("A", 0), ("X", 1)] : Discs).lookup n = some 1 :=
  C52_implicit_least 2 exVs (by unfold DistinctVariants; decide) _ rfl ⟨"B", {}, []⟩ (by decide) rfl rfl 2 1 rfl (by decide)

/-- Numbers at a revision depend only on the variants alive at it: what the schema says about later
or earlier revisions does not change them. -/
theorem C52_stable (r : Nat) (vs ws : List VariantSig)
    (h : vs.filter (·.existsAt r) = ws.filter (·.existsAt r)) : calcDiscs r vs = calcDiscs r ws := by
  unfold calcDiscs
  rw [← gatherOverrides_filter r vs, ← gatherOverrides_filter r ws, h]
  cases gatherOverrides r (ws.filter (·.existsAt r)) [] [] with
  | error e => rfl
  | ok p => simp only []; rw [← assignDiscs_filter r vs, ← assignDiscs_filter r ws, h]

example : exVs.filter (·.existsAt 1) = [⟨"A", {}, []⟩, ⟨"B", {}, []⟩].filter (VariantSig.existsAt · 1) := by
  decide

/-- The name table is the inverse of the numbering, on the revisions of the schema, and empty
elsewhere. -/
theorem C52_variant_name (last r : Nat) (vs : List VariantSig) (hn : DistinctVariants r vs) (D : Discs)
    (h : calcDiscs r vs = .ok D) (d : Nat) (n : String) :
    variantName last vs r d = some n ↔ 1 ≤ r ∧ r ≤ last ∧ D.lookup n = some d := by
  unfold variantName
  by_cases hr : 1 ≤ r ∧ r ≤ last
  · rw [if_pos hr, h]
    simp only [Option.map_eq_some_iff]
    constructor
    · rintro ⟨v, hv, rfl⟩
      have := List.find?_some hv
      exact ⟨hr.1, hr.2, by simpa using this⟩
    · rintro ⟨_, _, hl⟩
      obtain ⟨v, hv, ha, hvn⟩ := (C52_total r vs hn D h n).1 ⟨d, hl⟩
      cases hf : (vs.filter (·.existsAt r)).find? (fun v => decide (D.lookup v.ident = some d)) with
      | none =>
        rw [List.find?_eq_none] at hf
        exact absurd (by simpa [hvn] using hl) (hf v (List.mem_filter.2 ⟨hv, ha⟩))
      | some w =>
        have := List.find?_some hf
        exact ⟨w, rfl, C52_injective r vs hn D h _ _ d (by simpa using this) hl⟩
  · rw [if_neg hr]
    constructor
    · rintro ⟨⟩
    · rintro ⟨h1, h2, _⟩; exact absurd ⟨h1, h2⟩ hr

example : variantName 2 exVs 2 1 = some "X" ∧ variantName 2 exVs 1 1 = some "B" ∧
    variantName 2 exVs 3 1 = none := by decide

/-- An enum accepted for the optimised encoding has at most 32 live variants, all with a declared
size and a discriminant that fits the five bits of the tag. -/
theorem C52_optimised_fits (r : Nat) (vs : List VariantSig) (hn : DistinctVariants r vs)
    (h : validateOptimised r vs = .ok ()) :
    (vs.filter (·.existsAt r)).length ≤ 32 ∧
    (∀ v ∈ vs, v.existsAt r = true → v.opts.size ≠ none) ∧
    ∃ D, calcDiscs r vs = .ok D ∧ ∀ n d, D.lookup n = some d → d < 32 := by
  unfold validateOptimised at h
  simp only [] at h
  split at h
  · cases h
  rename_i h1
  split at h
  · cases h
  rename_i h2
  cases hc : calcDiscs r vs with
  | error e => rw [hc] at h; cases h
  | ok D =>
    rw [hc] at h
    simp only [] at h
    split at h
    · cases h
    rename_i h3
    refine ⟨by omega, ?_, D, rfl, ?_⟩
    · intro v hv ha hs
      refine h2 (List.any_eq_true.2 ⟨v, List.mem_filter.2 ⟨hv, ha⟩, by simp [hs]⟩)
    · intro n d hl
      simp only [List.any_eq_true, not_exists, not_and, decide_eq_true_eq] at h3
      have := h3 (n, d) (mem_of_lookup_eq_some _ _ _ hl)
      simp only [] at this
      omega

example : validateOptimised 1 [⟨"A", { size := some .inline }, []⟩] = .ok () := by rfl

end Revision
