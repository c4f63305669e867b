import Verif.Proofs.SchemaVariant
import Verif.Props.Schema

/-! # C86: the options of variants; more of C46 and C52 -/

namespace Revision

/-! ## C86 Variant options -/

/-- The options of a variant are accepted exactly when no keyword is given twice, every override names one
revision and at most one discriminant, and an end comes with a conversion function. -/
theorem C86_accepted_iff (os : List VariantOption) :
    (∃ o, VariantOptions.finish os = .ok o) ↔ WellFormedVariant os := by
  have hseen : ∀ k, ((os.foldl VariantOptions.set {}).seen k) =
      decide (k ∈ os.filterMap VariantOption.kind) := by
    intro k; rw [VariantOptions.seen_foldl, VariantOptions.seen_default, Bool.false_or]
  have hs := hseen .stop
  have hc := hseen .convert
  simp only [VariantOptions.seen] at hs hc
  have hfine : (∀ x ∈ os, VariantOptions.fine x) ↔ ∀ ov, VariantOption.override ov ∈ os →
      (overrideRevisions ov).length = 1 ∧ (overrideDiscs ov).length ≤ 1 := by
    constructor
    · intro h ov hov; exact h _ hov
    · intro h x hx
      cases x with
      | override ov => exact h ov hx
      | _ => trivial
  unfold WellFormedVariant VariantOptions.finish
  rw [← hfine]
  cases hst : VariantOptions.steps {} os with
  | error e =>
    refine ⟨fun ⟨_, h⟩ => (by cases h), ?_⟩
    rintro ⟨h1, h2, _⟩
    have := (VariantOptions.steps_ok os {} _).2 ⟨rfl, h1, fun k _ => VariantOptions.seen_default k, h2⟩
    rw [this] at hst; cases hst
  | ok o =>
    obtain ⟨rfl, h1, h2, h3⟩ := (VariantOptions.steps_ok os {} o).1 hst
    have hcn : (os.foldl VariantOptions.set {}).convert.isNone =
        !(os.foldl VariantOptions.set {}).convert.isSome := by
      cases (os.foldl VariantOptions.set {}).convert <;> rfl
    simp only [hs, hcn, hc]
    by_cases h4 : VariantKind.stop ∈ os.filterMap VariantOption.kind <;>
      by_cases h5 : VariantKind.convert ∈ os.filterMap VariantOption.kind <;>
      simp [h1, h4, h5] <;> exact h3

private theorem finish_eq (os : List VariantOption) (o : VariantOptions)
    (h : VariantOptions.finish os = .ok o) : o = os.foldl VariantOptions.set {} := by
  unfold VariantOptions.finish at h
  cases hst : VariantOptions.steps {} os with
  | error e => rw [hst] at h; cases h
  | ok o' =>
    rw [hst] at h
    have := ((VariantOptions.steps_ok os {} o').1 hst).1
    simp only [] at h
    by_cases hc : (o'.stop.isSome && o'.convert.isNone) = true
    · rw [if_pos hc] at h; cases h
    · rw [if_neg hc] at h
      cases h; exact this

/-- Everything but the overrides means what was written, and nothing else. -/
theorem C86_recorded (os : List VariantOption) (o : VariantOptions) (h : VariantOptions.finish os = .ok o)
    (x : VariantOption) (hx : x.kind ≠ none) : o.Has x ↔ x ∈ os := by
  obtain ⟨hn, -, -⟩ := (C86_accepted_iff os).1 ⟨o, h⟩
  rw [finish_eq os o h]
  cases hk : x.kind with
  | none => exact absurd hk hx
  | some k =>
    rw [VariantOptions.has_foldl os {} x k hk hn]
    cases x <;> simp [VariantOptions.Has, VariantOption.kind] at hk ⊢

/-- The override in force at a revision is the last one written for it. -/
theorem C86_override (os : List VariantOption) (o : VariantOptions) (h : VariantOptions.finish os = .ok o)
    (r : Nat) : o.overrides.lookup r = ((os.filterMap VariantOption.overrideOf).reverse).lookup r := by
  rw [finish_eq os o h, VariantOptions.overrides_foldl, List.append_nil]

/-- If no two overrides are for the same revision, each is in force. -/
theorem C86_override_honoured_partial (os : List VariantOption) (o : VariantOptions)
    (h : VariantOptions.finish os = .ok o)
    (hd : ((os.filterMap VariantOption.overrideOf).map (·.1)).Nodup)
    (ov : List VariantOverride) (hov : VariantOption.override ov ∈ os) : o.Has (.override ov) := by
  obtain ⟨-, hw, -⟩ := (C86_accepted_iff os).1 ⟨o, h⟩
  obtain ⟨h1, -⟩ := hw ov hov
  cases hr : overrideRevisions ov with
  | nil => rw [hr] at h1; cases h1
  | cons r l =>
    refine ⟨(r, (overrideDiscs ov).head?), by simp [VariantOption.overrideOf, hr], ?_⟩
    rw [C86_override os o h]
    refine lookup_eq_some_of_mem _ ?_ _ _ ?_
    · rw [List.map_reverse]; exact (List.reverse_perm _).nodup_iff.2 hd
    · rw [List.mem_reverse, List.mem_filterMap]
      exact ⟨_, hov, by simp [VariantOption.overrideOf, hr]⟩

private def exOs : List VariantOption :=
  [.start 2, .override [.revision 3, .discriminant 7], .stop 5, .convert "f", .size (.fixed 4),
   .override [.discriminant 9, .revision 4]]

example : VariantOptions.finish exOs =
    .ok ⟨some 2, some 5, some "f", none, none, [(4, some 9), (3, some 7)], some (.fixed 4)⟩ := by rfl

example : ((exOs.filterMap VariantOption.overrideOf).map (·.1)).Nodup := by decide

/-- Not every accepted override is in force: of two for one revision the first is lost without an error. -/
theorem C86_override_honoured_false : ∃ (os : List VariantOption) (o : VariantOptions)
    (ov : List VariantOverride), VariantOptions.finish os = .ok o ∧ VariantOption.override ov ∈ os ∧ ¬ o.Has (.override ov) := by
  refine ⟨[.override [.revision 1, .discriminant 5], .override [.revision 1, .discriminant 6]],
    { overrides := [(1, some 6), (1, some 5)] }, [.revision 1, .discriminant 5], rfl, by simp, ?_⟩
  rintro ⟨p, hp, hl⟩
  cases hp
  revert hl
  decide

/-- Nor need the revision of an override exist: one beyond the history passes every check of the macro, and no
revision of the type uses it. -/
theorem C86_override_revision_false : ∃ (os : List VariantOption) (o : VariantOptions) (r d : Nat),
    VariantOptions.finish os = .ok o ∧ o.overrides.lookup r = some (some d) ∧ 3 < r ∧
    validateVariant 3 ⟨"A", o, []⟩ = true ∧
    ∀ r', r' ≤ 3 → calcDiscs r' [⟨"A", o, []⟩] = .ok [("A", 0)] := by
  refine ⟨[.override [.revision 4, .discriminant 5]], { overrides := [(4, some 5)] }, 4, 5, rfl, rfl,
    by decide, rfl, ?_⟩
  intro r' hr
  match r', hr with
  | 0, _ => rfl
  | 1, _ => rfl
  | 2, _ => rfl
  | 3, _ => rfl

/-- The texts accepted for a size, and what they mean. -/
theorem C86_size (raw : List Char) (v : VariantSize) : parseVariantSize raw = some v ↔ SizeText raw v := by
  have tI : Trimmed "inline".toList := by constructor <;> intro c hc <;> cases hc <;> rfl
  have tV : Trimmed "varlen".toList := by constructor <;> intro c hc <;> cases hc <;> rfl
  have tF : ∀ m, Trimmed ("fixed(".toList ++ m ++ [')']) := by
    intro m
    constructor
    · intro c hc
      have : c = 'f' := by simpa using hc.symm
      subst this; rfl
    · intro c hc
      rw [List.getLast?_append] at hc
      cases hc; rfl
  constructor
  · intro h
    obtain ⟨a, b, hraw, hsp, ht⟩ := trimText_split raw
    unfold parseVariantSize at h
    simp only [] at h
    by_cases h1 : trimText raw = "inline".toList
    · rw [if_pos h1] at h; cases h
      exact ⟨a, b, by rw [← h1]; exact hraw, fun c hc => (isSpace_iff c).1 (hsp c hc)⟩
    rw [if_neg h1] at h
    by_cases h2 : trimText raw = "varlen".toList
    · rw [if_pos h2] at h; cases h
      exact ⟨a, b, by rw [← h2]; exact hraw, fun c hc => (isSpace_iff c).1 (hsp c hc)⟩
    rw [if_neg h2] at h
    cases h3 : stripPrefix "fixed(".toList (trimText raw) with
    | none => rw [h3] at h; cases h
    | some rest =>
      rw [h3] at h; simp only [] at h
      cases h4 : stripSuffix ')' rest with
      | none => rw [h4] at h; cases h
      | some num =>
        rw [h4] at h; simp only [Option.map_eq_some_iff] at h
        obtain ⟨n, hn, rfl⟩ := h
        obtain ⟨plus, ds, e, hp, hne, hd, hv, hlt⟩ := (u8FromStr_iff _ _).1 hn
        obtain ⟨c, d, hnum, hsp', -⟩ := trimText_split num
        rw [stripPrefix_iff] at h3
        rw [stripSuffix_iff] at h4
        refine ⟨a, b, c, d, plus, ds, ?_, ?_, hp, hne, hd, hv, hlt⟩
        · rw [← e, ← hnum, List.append_assoc "fixed(".toList, ← h4, ← h3]; exact hraw
        · intro x hx
          rcases List.mem_append.1 hx with hx | hx
          · exact (isSpace_iff x).1 (hsp x hx)
          · exact (isSpace_iff x).1 (hsp' x hx)
  · intro h
    cases v with
    | inline =>
      obtain ⟨a, b, rfl, hsp⟩ := h
      simp only [parseVariantSize, trimText_of (fun c hc => (isSpace_iff c).2 (hsp c hc)) tI]
      rfl
    | varlen =>
      obtain ⟨a, b, rfl, hsp⟩ := h
      simp only [parseVariantSize, trimText_of (fun c hc => (isSpace_iff c).2 (hsp c hc)) tV]
      rfl
    | fixed n =>
      obtain ⟨a, b, c, d, plus, ds, rfl, hsp, hp, hne, hd, hv, hlt⟩ := h
      have hab : ∀ x ∈ a ++ b, isSpace x = true := fun x hx => (isSpace_iff x).2 (hsp x (List.mem_append.2 (.inl hx)))
      have hcd : ∀ x ∈ c ++ d, isSpace x = true := fun x hx => (isSpace_iff x).2 (hsp x (List.mem_append.2 (.inr hx)))
      have tN : Trimmed (plus ++ ds) := by
        constructor
        · intro x hx
          rcases hp with rfl | rfl
          · exact digit_not_space (hd x (List.mem_of_mem_head? hx))
          · cases hx; rfl
        · intro x hx
          rw [List.getLast?_append] at hx
          cases hl : ds.getLast? with
          | none => exact absurd (List.getLast?_eq_none_iff.1 hl) hne
          | some y =>
            rw [hl] at hx
            cases hx
            exact digit_not_space (hd _ (List.mem_of_getLast? hl))
      simp only [parseVariantSize, trimText_of hab (tF _)]
      have n1 : ("fixed(".toList ++ (c ++ (plus ++ ds) ++ d) ++ [')']) ≠ "inline".toList := by
        intro h; simp at h
      have n2 : ("fixed(".toList ++ (c ++ (plus ++ ds) ++ d) ++ [')']) ≠ "varlen".toList := by
        intro h; simp at h
      rw [if_neg n1, if_neg n2, List.append_assoc "fixed(".toList,
        (stripPrefix_iff _ _ _).2 rfl]
      simp only []
      rw [(stripSuffix_iff ')' _ _).2 rfl]
      simp only [trimText_of hcd tN]
      rw [(u8FromStr_iff (plus ++ ds) n).2 ⟨plus, ds, rfl, hp, hne, hd, hv, hlt⟩]
      rfl

example : SizeText " fixed( +0255 )\n".toList (.fixed 255) := by
  rw [← C86_size]; rfl

example : parseVariantSize "fixed(256)".toList = none ∧ parseVariantSize "Inline".toList = none ∧
    parseVariantSize "fixed()".toList = none ∧ parseVariantSize "fixed (4)".toList = none := ⟨rfl, rfl, rfl, rfl⟩

/-- A text means at most one size. -/
theorem C86_size_unambiguous (raw : List Char) (v w : VariantSize) (hv : SizeText raw v) (hw : SizeText raw w) :
    v = w := by
  rw [← C86_size] at hv hw
  rw [hv] at hw
  exact Option.some.inj hw

/-! ## C46 Entries of the history -/

theorem entryLoop_iff : ∀ (os : List EntryOption) (e0 e : Entry), entryLoop e0 os = .ok e ↔
    (∀ s, EntryOption.map s ∈ os ∨ EntryOption.seq s ∈ os → s = "default") ∧
    e = ⟨e0.revision, e0.optimised || decide (EntryOption.optimised ∈ os),
      e0.indexedStruct || decide (EntryOption.indexedStruct ∈ os)⟩ := by
  intro os
  induction os with
  | nil => intro e0 e; simp [entryLoop]; exact eq_comm
  | cons x os ih =>
    intro e0 e
    cases x with
    | optimised => rw [entryLoop, ih]; simp
    | indexedStruct => rw [entryLoop, ih]; simp
    | map s =>
      rw [entryLoop]
      by_cases hs : s = "default"
      · rw [if_pos hs, ih]
        subst hs
        simp only [List.mem_cons, EntryOption.map.injEq, reduceCtorEq, false_or]
        constructor
        · rintro ⟨a, b⟩
          exact ⟨fun s h => h.elim (fun h => h.elim id (fun h => a s (.inl h))) (fun h => a s (.inr h)), b⟩
        · rintro ⟨a, b⟩
          exact ⟨fun s h => a s (h.elim (fun h => .inl (.inr h)) .inr), b⟩
      · rw [if_neg hs]
        constructor
        · split <;> intro h <;> cases h
        · rintro ⟨a, _⟩; exact absurd (a s (.inl (by simp))) hs
    | seq s =>
      rw [entryLoop]
      by_cases hs : s = "default"
      · rw [if_pos hs, ih]
        subst hs
        simp only [List.mem_cons, EntryOption.seq.injEq, reduceCtorEq, false_or]
        constructor
        · rintro ⟨a, b⟩
          exact ⟨fun s h => h.elim (fun h => a s (.inl h)) (fun h => h.elim id (fun h => a s (.inr h))), b⟩
        · rintro ⟨a, b⟩
          exact ⟨fun s h => a s (h.elim .inl (fun h => .inr (.inr h))), b⟩
      · rw [if_neg hs]
        constructor
        · split <;> intro h <;> cases h
        · rintro ⟨a, _⟩; exact absurd (a s (.inr (by simp))) hs

/-- The options of one revision are accepted exactly when the map and sequence encodings named are `default`, and
an indexed struct comes with the optimised encoding; the entry then says what was written. -/
theorem C46_entry (r : Nat) (os : List EntryOption) (e : Entry) :
    buildEntry r os = .ok e ↔
      (∀ s, EntryOption.map s ∈ os ∨ EntryOption.seq s ∈ os → s = "default") ∧
      (EntryOption.indexedStruct ∈ os → EntryOption.optimised ∈ os) ∧
      e = ⟨r, decide (EntryOption.optimised ∈ os), decide (EntryOption.indexedStruct ∈ os)⟩ := by
  unfold buildEntry
  cases hl : entryLoop (Entry.legacy r) os with
  | error x =>
    refine ⟨fun h => (by cases h), ?_⟩
    rintro ⟨h, _, _⟩
    have := (entryLoop_iff os (Entry.legacy r) _).2 ⟨h, rfl⟩
    rw [this] at hl; cases hl
  | ok e1 =>
    obtain ⟨h1, rfl⟩ := (entryLoop_iff os (Entry.legacy r) e1).1 hl
    simp only [Entry.legacy, Bool.false_or]
    by_cases ho : EntryOption.optimised ∈ os <;> by_cases hi : EntryOption.indexedStruct ∈ os <;>
      simp [ho, hi] <;> first | exact ⟨fun h => ⟨h1, h.symm⟩, fun h => h.2.symm⟩ | skip

example : buildEntry 3 [.indexedStruct, .map "default", .optimised] = .ok ⟨3, true, true⟩ := by rfl

/-- Which error a refused list of options gives: the first encoding named that is not `default` counts, and
`indexed` is told apart from names unknown; if there is none, the optimised encoding is missing. -/
theorem C46_entry_error (r : Nat) (os : List EntryOption) (err : MacroErr) (h : buildEntry r os = .error err) :
    (∃ pre o post, os = pre ++ o :: post ∧ (∀ s, EntryOption.map s ∈ pre ∨ EntryOption.seq s ∈ pre → s = "default") ∧
      o.RefusedWith err) ∨
    ((∀ s, EntryOption.map s ∈ os ∨ EntryOption.seq s ∈ os → s = "default") ∧
      EntryOption.indexedStruct ∈ os ∧ EntryOption.optimised ∉ os ∧ err = .needsOptimised) := by
  have key : ∀ (os : List EntryOption) (e0 : Entry) (err : MacroErr), entryLoop e0 os = .error err →
      ∃ pre o post, os = pre ++ o :: post ∧ (∀ s, EntryOption.map s ∈ pre ∨ EntryOption.seq s ∈ pre → s = "default") ∧
      o.RefusedWith err := by
    intro os
    induction os with
    | nil => intro e0 err h; simp [entryLoop] at h
    | cons x os ih =>
      intro e0 err h
      have later : ∀ e1, entryLoop e1 os = .error err →
          (∀ s, x = EntryOption.map s ∨ x = EntryOption.seq s → s = "default") →
          ∃ pre o post, x :: os = pre ++ o :: post ∧
          (∀ s, EntryOption.map s ∈ pre ∨ EntryOption.seq s ∈ pre → s = "default") ∧ o.RefusedWith err := by
        intro e1 h1 hx
        obtain ⟨pre, o, post, h2, h3, h4⟩ := ih e1 err h1
        refine ⟨x :: pre, o, post, by rw [h2]; rfl, ?_, h4⟩
        intro s hs
        simp only [List.mem_cons] at hs
        rcases hs with (rfl | hs) | (rfl | hs)
        · exact hx s (.inl rfl)
        · exact h3 s (.inl hs)
        · exact hx s (.inr rfl)
        · exact h3 s (.inr hs)
      cases x with
      | optimised => exact later _ h nofun
      | indexedStruct => exact later _ h nofun
      | map s =>
        rw [entryLoop] at h
        split at h
        · exact later _ h fun s' hs' => by rcases hs' with hs' | hs' <;> cases hs'; assumption
        · refine ⟨[], _, os, rfl, by simp, ?_⟩
          split at h <;> injection h with h
          · rename_i h2; exact .inl ⟨.inl (by rw [h2]), h.symm⟩
          · rename_i h1 h2; exact .inr ⟨s, h1, h2, .inl rfl, h.symm⟩
      | seq s =>
        rw [entryLoop] at h
        split at h
        · exact later _ h fun s' hs' => by rcases hs' with hs' | hs' <;> cases hs'; assumption
        · refine ⟨[], _, os, rfl, by simp, ?_⟩
          split at h <;> injection h with h
          · rename_i h2; exact .inl ⟨.inr (by rw [h2]), h.symm⟩
          · rename_i h1 h2; exact .inr ⟨s, h1, h2, .inr rfl, h.symm⟩
  have h0 := h
  unfold buildEntry at h
  split at h
  · rename_i e he
    split at h
    · injection h with h
      by_cases hd : ∀ s, EntryOption.map s ∈ os ∨ EntryOption.seq s ∈ os → s = "default"
      · by_cases hio : EntryOption.indexedStruct ∈ os → EntryOption.optimised ∈ os
        · rw [(C46_entry r os _).2 ⟨hd, hio, rfl⟩] at h0; cases h0
        · exact .inr ⟨hd, Classical.byContradiction fun hn => hio fun h => absurd h hn, fun h => hio fun _ => h, h.symm⟩
      · exfalso
        exact hd ((entryLoop_iff os _ e).1 he).1
    · cases h
  · rename_i e he
    injection h with h
    exact .inl (key os _ err (by rw [he, h]))

example : buildEntry 3 [.map "default", .seq "indexed", .map "sorted"] = .error .unsupportedIndexed ∧
    buildEntry 3 [.indexedStruct] = .error .needsOptimised := ⟨rfl, rfl⟩

/-! ## C52 The tables of names -/

/-- The table of variants at a revision of the schema is the live variants, in order, each with its discriminant;
at any other revision it is empty. -/
theorem C52_variant_table (last r : Nat) (vs : List VariantSig) (hn : DistinctVariants r vs) (D : Discs)
    (h : calcDiscs r vs = .ok D) :
    (variantTable last vs r).map (·.1) =
      (if 1 ≤ r ∧ r ≤ last then (vs.filter (·.existsAt r)).map (·.ident) else []) ∧
    ∀ p ∈ variantTable last vs r, D.lookup p.1 = some p.2 := by
  unfold variantTable
  by_cases hr : 1 ≤ r ∧ r ≤ last
  · rw [if_pos hr, if_pos hr, h]
    simp only []
    constructor
    · have : ∀ l : List VariantSig, (∀ v ∈ l, ∃ d, D.lookup v.ident = some d) →
          (l.filterMap fun v => (D.lookup v.ident).map (v.ident, ·)).map (·.1) = l.map (·.ident) := by
        intro l
        induction l with
        | nil => intro _; rfl
        | cons v l ih =>
          intro hl
          obtain ⟨d, hd⟩ := hl v (by simp)
          rw [List.filterMap_cons, hd]
          simp only [Option.map_some, List.map_cons]
          rw [ih fun w hw => hl w (by simp [hw])]
      refine this _ ?_
      intro v hv
      have := List.mem_filter.1 hv
      exact (C52_total r vs hn D h v.ident).2 ⟨v, this.1, this.2, rfl⟩
    · intro p hp
      obtain ⟨v, _, hv⟩ := List.mem_filterMap.1 hp
      obtain ⟨d, hd, rfl⟩ := Option.map_eq_some_iff.1 hv
      exact hd
  · rw [if_neg hr, if_neg hr]
    simp

/-- A discriminant is in the table with a name exactly when the name function resolves it to that name. -/
theorem C52_table_is_names (last r : Nat) (vs : List VariantSig) (hn : DistinctVariants r vs) (D : Discs)
    (h : calcDiscs r vs = .ok D) (n : String) (d : Nat) :
    (n, d) ∈ variantTable last vs r ↔ variantName last vs r d = some n := by
  rw [C52_variant_name last r vs hn D h]
  obtain ⟨h1, h2⟩ := C52_variant_table last r vs hn D h
  constructor
  · intro hm
    have hl := h2 _ hm
    refine ⟨?_, ?_, hl⟩
    all_goals
      have : n ∈ (variantTable last vs r).map (·.1) := List.mem_map.2 ⟨_, hm, rfl⟩
      rw [h1] at this
      by_cases hr : 1 ≤ r ∧ r ≤ last
      · first | exact hr.1 | exact hr.2
      · rw [if_neg hr] at this; simp at this
  · rintro ⟨ha, hb, hl⟩
    obtain ⟨v, hv, he, rfl⟩ := (C52_total r vs hn D h n).1 ⟨d, hl⟩
    have : v.ident ∈ (variantTable last vs r).map (·.1) := by
      rw [h1, if_pos ⟨ha, hb⟩]
      exact List.mem_map.2 ⟨v, List.mem_filter.2 ⟨hv, he⟩, rfl⟩
    obtain ⟨⟨n', d'⟩, hp, hpe⟩ := List.mem_map.1 this
    have hl' := h2 _ hp
    simp only at hpe hl'
    subst hpe
    rw [hl] at hl'
    cases hl'
    exact hp

private def exTable : List VariantSig :=
  [⟨"X", { start := some 2, overrides := [(2, some 1)] }, []⟩, ⟨"A", {}, []⟩, ⟨"B", {}, []⟩]

example : variantTable 2 exTable 2 = [("X", 1), ("A", 0), ("B", 2)] ∧
    variantTable 2 exTable 1 = [("A", 0), ("B", 1)] ∧ variantTable 2 exTable 3 = [] := by decide

/-- The table of fields at a revision names the fields live there, in order of declaration, and nothing at a
revision the schema does not have. -/
theorem C52_field_names (last r : Nat) (fs : List (String × FieldOptions)) (hl : last ≤ 65535) :
    fieldNames last fs r =
      if 1 ≤ r ∧ r ≤ last then (fs.filter fun f => f.2.liveAt r).map (·.1) else [] := by
  unfold fieldNames
  by_cases hr : 1 ≤ r ∧ r ≤ last
  · rw [if_pos hr, if_pos hr]
    congr 2
    funext f
    rw [Bool.eq_iff_iff, C47_window _ _ _ (by omega), FieldOptions.liveAt]
    cases f.2.start <;> cases f.2.stop <;> simp
  · rw [if_neg hr, if_neg hr]

example : fieldNames 3 [("a", { stop := some 2 }), ("b", {}), ("c", { start := some 3 })] 1 = ["a", "b"] ∧
    fieldNames 3 [("a", { stop := some 2 }), ("b", {}), ("c", { start := some 3 })] 3 = ["b", "c"] := by decide

end Revision
