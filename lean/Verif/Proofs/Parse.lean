import Verif.Proofs.Macro
import Verif.Props.SchemaVariant
import Verif.Spec.Parse

/-! Helper lemmas: the parser and the grammar. -/

namespace Revision

/-! ### The pieces -/

theorem parseKw_some {k : String} {ts us : List Tok} : parseKw k ts = some us ↔ ts = .ident k :: us := by
  unfold parseKw
  split
  · next s us' =>
    split
    · next h => subst h; simp
    · next h => simp only [reduceCtorEq, List.cons.injEq, Tok.ident.injEq, false_iff, not_and]; intro h'; exact absurd h' h
  · next h =>
    simp only [reduceCtorEq, false_iff]
    rintro rfl
    exact h _ _ rfl

theorem parsePunct_some {c : Char} {ts us : List Tok} : parsePunct c ts = some us ↔ ts = .punct c :: us := by
  unfold parsePunct
  split
  · next s us' =>
    split
    · next h => subst h; simp
    · next h => simp only [reduceCtorEq, List.cons.injEq, Tok.punct.injEq, false_iff, not_and]; intro h'; exact absurd h' h
  · next h =>
    simp only [reduceCtorEq, false_iff]
    rintro rfl
    exact h _ _ rfl

theorem parseInt_some {b n : Nat} {ts us : List Tok} :
    parseInt b ts = some (n, us) ↔ n < b ∧ ts = .int n :: us := by
  unfold parseInt
  split
  · next m us' =>
    split
    · next h =>
      simp only [Option.some.injEq, Prod.mk.injEq, List.cons.injEq, Tok.int.injEq]
      constructor
      · rintro ⟨rfl, rfl⟩; exact ⟨h, rfl, rfl⟩
      · rintro ⟨-, rfl, rfl⟩; exact ⟨rfl, rfl⟩
    · next h =>
      simp only [reduceCtorEq, List.cons.injEq, Tok.int.injEq, false_iff, not_and]
      rintro hn rfl
      exact absurd hn h
  · next h =>
    simp only [reduceCtorEq, false_iff]
    rintro ⟨-, rfl⟩
    exact h _ _ rfl

theorem parseStr_some {s : String} {ts us : List Tok} : parseStr ts = some (s, us) ↔ ts = .str s :: us := by
  unfold parseStr
  split
  · simp
  · next h =>
    simp only [reduceCtorEq, false_iff]
    rintro rfl
    exact h _ _ rfl

theorem parseType_some {s : String} {ts us : List Tok} : parseType ts = some (s, us) ↔ ts = .type s :: us := by
  unfold parseType
  split
  · simp
  · next h =>
    simp only [reduceCtorEq, false_iff]
    rintro rfl
    exact h _ _ rfl

theorem parseParen_some {s ts us : List Tok} : parseParen ts = some (s, us) ↔ ts = .paren s :: us := by
  unfold parseParen
  split
  · simp
  · next h =>
    simp only [reduceCtorEq, false_iff]
    rintro rfl
    exact h _ _ rfl

theorem parseBool_some {b : Bool} {ts us : List Tok} : parseBool ts = some (b, us) ↔ ts = boolTok b :: us := by
  unfold parseBool
  split
  · next s us' =>
    unfold boolTok
    by_cases h1 : s = "true"
    · subst h1
      cases b <;> simp
    · by_cases h2 : s = "false"
      · subst h2
        cases b <;> simp
      · cases b <;> simp [h1, h2]
  · next h =>
    simp only [reduceCtorEq, false_iff]
    rintro rfl
    exact h _ _ rfl

theorem mem_keywords {s : String} : s ∈ keywords ↔ s ∈ reserved :=
  (List.isPerm_iff.1 (by decide +kernel : keywords.isPerm reserved = true)).mem_iff

theorem parseIdent_some {s : String} {ts us : List Tok} :
    parseIdent ts = some (s, us) ↔ s ∉ reserved ∧ ts = .ident s :: us := by
  rw [← mem_keywords]
  unfold parseIdent
  split
  · next s' us' =>
    by_cases hk : s' ∈ keywords
    · rw [if_pos (List.contains_iff_mem.2 hk)]
      simp only [reduceCtorEq, List.cons.injEq, Tok.ident.injEq, false_iff, not_and]
      rintro hs rfl
      exact absurd hk hs
    · rw [if_neg (fun h => hk (List.contains_iff_mem.1 h))]
      simp only [Option.some.injEq, Prod.mk.injEq, List.cons.injEq, Tok.ident.injEq]
      constructor
      · rintro ⟨rfl, rfl⟩; exact ⟨hk, rfl, rfl⟩
      · rintro ⟨-, rfl, rfl⟩; exact ⟨rfl, rfl⟩
  · next h =>
    simp only [reduceCtorEq, false_iff]
    rintro ⟨-, rfl⟩
    exact h _ _ rfl

theorem Parser.map_some {c : α → β} {p : Parser α} {ts us : List Tok} {y : β} :
    p.map c ts = some (y, us) ↔ ∃ x, p ts = some (x, us) ∧ c x = y := by
  unfold Parser.map
  cases h : p ts with
  | none => simp
  | some q => 
    obtain ⟨x, r⟩ := q
    simp only [Option.bind_eq_bind, Option.bind_some, pure, Option.some.injEq, Prod.mk.injEq]
    constructor
    · rintro ⟨rfl, rfl⟩; exact ⟨x, ⟨rfl, rfl⟩, rfl⟩
    · rintro ⟨_, ⟨rfl, rfl⟩, rfl⟩; exact ⟨rfl, rfl⟩

theorem valueOption_some {k : String} {v : Parser α} {ts rest : List Tok} {x : α} :
    valueOption k v ts = some (x, rest) ↔ ∃ us, ts = .ident k :: .punct '=' :: us ∧ v us = some (x, rest) := by
  unfold valueOption
  constructor
  · intro h
    simp only [Option.bind_eq_bind, Option.bind_eq_some_iff] at h
    obtain ⟨a, ha, b, hb, h⟩ := h
    rw [parseKw_some] at ha
    rw [parsePunct_some] at hb
    exact ⟨b, by rw [ha, hb], h⟩
  · rintro ⟨us, rfl, h⟩
    simp only [(parseKw_some).2 rfl, Option.bind_eq_bind, Option.bind_some, (parsePunct_some).2 rfl, h]

theorem flagOption_some {k : String} {ts rest : List Tok} {x : Unit} :
    flagOption k ts = some (x, rest) ↔ ts = .ident k :: rest := by
  unfold flagOption
  simp only [Option.bind_eq_bind, Option.bind_eq_some_iff, parseKw_some, pure, Option.some.injEq, Prod.mk.injEq, true_and]
  constructor
  · rintro ⟨_, h, rfl⟩; exact h
  · intro h; exact ⟨_, h, rfl⟩

theorem peekKw_cons (k s : String) (ts : List Tok) : peekKw k (.ident s :: ts) = (s == k) := rfl

/-! ### Lists -/

/-- What follows an item of a list. -/
def Stops (rest : List Tok) : Prop := rest = [] ∨ ∃ r, rest = .punct ',' :: r

/-- The parser takes what the grammar says, at least one token, where a list can go on or end. -/
structure Parses (p : Parser α) (w : α → List Tok → Prop) : Prop where
  sound : ∀ {ts x rest}, p ts = some (x, rest) → ∃ us, us ≠ [] ∧ w x us ∧ ts = us ++ rest
  complete : ∀ {us x rest}, w x us → Stops rest → p (us ++ rest) = some (x, rest)

theorem Parses.ne_nil {p : Parser α} {w : α → List Tok → Prop} (h : Parses p w) {x : α} {us : List Tok} (hw : w x us) :
    us ≠ [] := by
  rintro rfl
  obtain ⟨us, hne, -, e⟩ := h.sound (h.complete hw (.inl rfl))
  cases us with
  | nil => exact hne rfl
  | cons => cases e

theorem terminatedLoop_sound {p : Parser α} {w : α → List Tok → Prop} (h : Parses p w) :
    ∀ (n : Nat) (ts : List Tok) (xs : List α), terminatedLoop p n ts = some xs → CommaList w xs ts
  | n, [], xs, hx => by
    cases n <;> (simp only [terminatedLoop, Option.some.injEq] at hx; subst hx; exact .nil)
  | 0, _ :: _, xs, hx => by simp [terminatedLoop] at hx
  | n + 1, t :: ts, xs, hx => by
    simp only [terminatedLoop, Option.bind_eq_bind, Option.bind_eq_some_iff] at hx
    obtain ⟨⟨x, rest⟩, hp, hx⟩ := hx
    obtain ⟨us, hne, hw, e⟩ := h.sound hp
    cases rest with
    | nil =>
      simp only [pure, Option.some.injEq] at hx
      subst hx
      rw [e, List.append_nil]
      exact .last hw
    | cons r rest =>
      simp only [Option.bind_eq_some_iff, pure, Option.some.injEq] at hx
      obtain ⟨rest', hc, ys, hl, rfl⟩ := hx
      rw [parsePunct_some] at hc
      rw [e, hc]
      exact .cons hw (terminatedLoop_sound h n _ _ hl)

theorem terminatedLoop_complete {p : Parser α} {w : α → List Tok → Prop} (h : Parses p w) {ts : List Tok} {xs : List α}
    (hx : CommaList w xs ts) : ∀ n, ts.length ≤ n → terminatedLoop p n ts = some xs := by
  induction hx with
  | nil => intro n _; cases n <;> rfl
  | @last a ts hw =>
    intro n hn
    have hne := h.ne_nil hw
    obtain ⟨t, ts, rfl⟩ := List.exists_cons_of_ne_nil hne
    obtain ⟨n, rfl⟩ : ∃ k, n = k + 1 := ⟨n - 1, by simp only [List.length_cons] at hn; omega⟩
    have := h.complete hw (rest := []) (.inl rfl)
    rw [List.append_nil] at this
    simp only [terminatedLoop, this, Option.bind_eq_bind, Option.bind_some, pure]
  | @cons a as ts us hw _ ih =>
    intro n hn
    have hne := h.ne_nil hw
    have := h.complete hw (rest := .punct ',' :: us) (.inr ⟨_, rfl⟩)
    obtain ⟨t, ts, rfl⟩ := List.exists_cons_of_ne_nil hne
    simp only [List.length_append, List.length_cons] at hn
    obtain ⟨n, rfl⟩ : ∃ k, n = k + 1 := ⟨n - 1, by omega⟩
    rw [List.cons_append] at this ⊢
    simp only [terminatedLoop, this, Option.bind_eq_bind, Option.bind_some, (parsePunct_some).2 rfl, ih n (by omega), pure]

theorem parseTerminated_iff {p : Parser α} {w : α → List Tok → Prop} (h : Parses p w) (ts : List Tok) (xs : List α) :
    parseTerminated p ts = some xs ↔ CommaList w xs ts :=
  ⟨terminatedLoop_sound h _ _ _, fun hx => terminatedLoop_complete h hx _ (Nat.le_refl _)⟩

theorem groupOption_some {k : String} {p : Parser α} {ts rest : List Tok} {xs : List α} :
    groupOption k p ts = some (xs, rest) ↔ ∃ us, ts = .ident k :: .paren us :: rest ∧ parseTerminated p us = some xs := by
  unfold groupOption
  constructor
  · intro h
    simp only [Option.bind_eq_bind, Option.bind_eq_some_iff] at h
    obtain ⟨a, ha, ⟨c, b⟩, hb, ys, hy, h⟩ := h
    rw [parseKw_some] at ha
    rw [parseParen_some] at hb
    simp only [pure, Option.some.injEq, Prod.mk.injEq] at h
    obtain ⟨rfl, rfl⟩ := h
    exact ⟨c, by rw [ha, hb], hy⟩
  · rintro ⟨us, rfl, h⟩
    simp only [(parseKw_some).2 rfl, Option.bind_eq_bind, Option.bind_some, (parseParen_some).2 rfl, h, pure]

/-! ### Options -/

theorem parseFieldOption_parses : Parses parseFieldOption FieldOption.Written where
  sound {ts x rest} h := by
    unfold parseFieldOption at h
    repeat' split at h
    all_goals
      first
      | (cases h; done)
      | (simp only [Parser.map_some, valueOption_some, parseInt_some, parseStr_some] at h
         obtain ⟨_, ⟨_, rfl, h⟩, rfl⟩ := h
         first
         | (obtain ⟨hn, rfl⟩ := h; refine ⟨keyValue _ _, by simp [keyValue], ?_, rfl⟩; constructor; exact hn)
         | (subst h; refine ⟨keyValue _ _, by simp [keyValue], ?_, rfl⟩; constructor))
      | (simp only [Parser.map_some, flagOption_some] at h
         obtain ⟨_, rfl, rfl⟩ := h
         refine ⟨[_], by simp, ?_, rfl⟩; constructor)
  complete {us x rest} hw _ := by
    cases hw <;>
      simp [parseFieldOption, keyValue, peekKw_cons, Parser.map_some, valueOption_some, parseInt_some, parseStr_some,
        flagOption_some, usizeBound] <;> assumption

theorem parseVariantOverride_parses : Parses parseVariantOverride VariantOverride.Written where
  sound {ts x rest} h := by
    unfold parseVariantOverride at h
    repeat' split at h
    all_goals
      first
      | (cases h; done)
      | (simp only [Parser.map_some, valueOption_some, parseInt_some] at h
         obtain ⟨_, ⟨_, rfl, hn, rfl⟩, rfl⟩ := h
         refine ⟨keyValue _ _, by simp [keyValue], ?_, rfl⟩; constructor; exact hn)
  complete {us x rest} hw _ := by
    cases hw <;>
      simp [parseVariantOverride, keyValue, peekKw_cons, Parser.map_some, valueOption_some, parseInt_some, usizeBound,
        u32Bound] <;> assumption

theorem parseSize_some {v : VariantSize} {ts us : List Tok} :
    parseSize ts = some (v, us) ↔ ∃ s, ts = .str s :: us ∧ SizeText s.toList v := by
  unfold parseSize
  constructor
  · intro h
    simp only [Option.bind_eq_bind, Option.bind_eq_some_iff, pure, Option.some.injEq, Prod.mk.injEq] at h
    obtain ⟨⟨s, r⟩, hs, v', hv, rfl, rfl⟩ := h
    exact ⟨s, parseStr_some.1 hs, (C86_size _ _).1 hv⟩
  · rintro ⟨s, rfl, hv⟩
    simp only [parseStr_some.2 rfl, (C86_size _ _).2 hv, Option.bind_eq_bind, Option.bind_some, pure]

theorem parseVariantOption_parses : Parses parseVariantOption VariantOption.Written where
  sound {ts x rest} h := by
    unfold parseVariantOption at h
    repeat' split at h
    all_goals
      first
      | (cases h; done)
      | (simp only [Parser.map_some, valueOption_some, parseInt_some, parseStr_some, parseSize_some] at h
         obtain ⟨_, ⟨_, rfl, h⟩, rfl⟩ := h
         first
         | (obtain ⟨hn, rfl⟩ := h; refine ⟨keyValue _ _, by simp [keyValue], ?_, rfl⟩; constructor; exact hn)
         | (obtain ⟨_, rfl, hn⟩ := h; refine ⟨keyValue _ _, by simp [keyValue], ?_, rfl⟩; constructor; exact hn)
         | (subst h; refine ⟨keyValue _ _, by simp [keyValue], ?_, rfl⟩; constructor))
      | (simp only [Parser.map_some, groupOption_some, parseTerminated_iff parseVariantOverride_parses] at h
         obtain ⟨_, ⟨_, rfl, h⟩, rfl⟩ := h
         refine ⟨[_, _], by simp, ?_, rfl⟩; constructor; exact h)
  complete {us x rest} hw _ := by
    cases hw <;>
      simp [parseVariantOption, keyValue, peekKw_cons, Parser.map_some, valueOption_some, parseInt_some, parseStr_some,
        parseSize_some, groupOption_some, parseTerminated_iff parseVariantOverride_parses, usizeBound] <;> assumption

theorem parseEntryOption_parses : Parses parseEntryOption EntryOption.Written where
  sound {ts x rest} h := by
    unfold parseEntryOption at h
    repeat' split at h
    all_goals
      first
      | (cases h; done)
      | (simp only [Parser.map_some, valueOption_some, parseStr_some] at h
         obtain ⟨_, ⟨_, rfl, h⟩, rfl⟩ := h
         subst h; refine ⟨keyValue _ _, by simp [keyValue], ?_, rfl⟩; constructor)
      | (simp only [Parser.map_some, flagOption_some] at h
         obtain ⟨_, rfl, rfl⟩ := h
         refine ⟨[_], by simp, ?_, rfl⟩; constructor)
  complete {us x rest} hw _ := by
    cases hw <;>
      simp [parseEntryOption, keyValue, peekKw_cons, Parser.map_some, valueOption_some, parseStr_some, flagOption_some]

/-- The loop over the options of a revision is the loop over a list, after a comma. -/
theorem entryOptionsLoop_sound : ∀ (n : Nat) (ts : List Tok) (os : List EntryOption), entryOptionsLoop n ts = some os →
    ts = [] ∧ os = [] ∨ ∃ us, ts = .punct ',' :: us ∧ CommaList EntryOption.Written os us
  | n, [], os, h => by
    cases n <;> (simp only [entryOptionsLoop, Option.some.injEq] at h; exact .inl ⟨rfl, h.symm⟩)
  | 0, _ :: _, os, h => by simp [entryOptionsLoop] at h
  | n + 1, t :: ts, os, h => by
    simp only [entryOptionsLoop, Option.bind_eq_bind, Option.bind_eq_some_iff] at h
    obtain ⟨us, hc, h⟩ := h
    rw [parsePunct_some] at hc
    refine .inr ⟨us, hc, ?_⟩
    cases us with
    | nil =>
      simp only [pure, Option.some.injEq] at h
      subst h
      exact .nil
    | cons u us =>
      simp only [Option.bind_eq_some_iff, pure, Option.some.injEq] at h
      obtain ⟨⟨o, rest⟩, ho, os', hl, rfl⟩ := h
      obtain ⟨vs, -, hw, e⟩ := parseEntryOption_parses.sound ho
      rw [e]
      rcases entryOptionsLoop_sound n _ _ hl with ⟨rfl, rfl⟩ | ⟨us', rfl, hl'⟩
      · rw [List.append_nil]; exact .last hw
      · exact .cons hw hl'

theorem entryOptionsLoop_complete {us : List Tok} {os : List EntryOption} (h : CommaList EntryOption.Written os us) :
    ∀ n, us.length + 1 ≤ n → entryOptionsLoop n (.punct ',' :: us) = some os := by
  induction h with
  | nil =>
    intro n hn
    obtain ⟨n, rfl⟩ : ∃ k, n = k + 1 := ⟨n - 1, by omega⟩
    rfl
  | @last a ts hw =>
    intro n hn
    have hne := parseEntryOption_parses.ne_nil hw
    obtain ⟨t, ts, rfl⟩ := List.exists_cons_of_ne_nil hne
    obtain ⟨n, rfl⟩ : ∃ k, n = k + 1 := ⟨n - 1, by omega⟩
    have := parseEntryOption_parses.complete hw (rest := []) (.inl rfl)
    rw [List.append_nil] at this
    have e : entryOptionsLoop n [] = some [] := by cases n <;> rfl
    simp only [entryOptionsLoop, (parsePunct_some).2 rfl, this, Option.bind_eq_bind, Option.bind_some, e, pure]
  | @cons a as ts us hw _ ih =>
    intro n hn
    have hne := parseEntryOption_parses.ne_nil hw
    have := parseEntryOption_parses.complete hw (rest := .punct ',' :: us) (.inr ⟨_, rfl⟩)
    obtain ⟨t, ts, rfl⟩ := List.exists_cons_of_ne_nil hne
    simp only [List.length_append, List.length_cons] at hn
    obtain ⟨n, rfl⟩ : ∃ k, n = k + 1 := ⟨n - 1, by omega⟩
    rw [List.cons_append] at this ⊢
    simp only [entryOptionsLoop, (parsePunct_some).2 rfl, this, Option.bind_eq_bind, Option.bind_some, ih n (by omega), pure]

theorem parseEntry_some {ts rest : List Tok} {x : ItemOption} :
    parseEntry ts = some (x, rest) ↔ ∃ us, ts = .ident "revision" :: .paren us :: rest ∧ ∃ n, n < 2 ^ 64 ∧
      (us = [.int n] ∧ x = .entry n [] ∨
        ∃ vs os, us = .int n :: .punct ',' :: vs ∧ CommaList EntryOption.Written os vs ∧ x = .entry n os) := by
  unfold parseEntry
  constructor
  · intro h
    simp only [Option.bind_eq_bind, Option.bind_eq_some_iff, pure, Option.some.injEq, Prod.mk.injEq] at h
    obtain ⟨a, ha, ⟨c, b⟩, hb, ⟨n, d⟩, hn, os, ho, rfl, rfl⟩ := h
    rw [parseKw_some] at ha
    rw [parseParen_some] at hb
    rw [parseInt_some] at hn
    obtain ⟨hn, rfl⟩ := hn
    refine ⟨_, by rw [ha, hb], n, hn, ?_⟩
    rcases entryOptionsLoop_sound _ _ _ ho with ⟨rfl, rfl⟩ | ⟨us, rfl, hl⟩
    · exact .inl ⟨rfl, rfl⟩
    · exact .inr ⟨_, _, rfl, hl, rfl⟩
  · rintro ⟨us, rfl, n, hn, ⟨rfl, rfl⟩ | ⟨vs, os, rfl, hl, rfl⟩⟩
    · simp only [(parseKw_some).2 rfl, (parseParen_some).2 rfl, (parseInt_some (b := usizeBound)).2 ⟨hn, rfl⟩,
        Option.bind_eq_bind, Option.bind_some, pure]
      rfl
    · simp only [(parseKw_some).2 rfl, (parseParen_some).2 rfl, (parseInt_some (b := usizeBound)).2 ⟨hn, rfl⟩,
        Option.bind_eq_bind, Option.bind_some, pure, entryOptionsLoop_complete hl _ (Nat.le_refl _), List.length_cons]

theorem parseItemOption_parses : Parses parseItemOption ItemOption.Written where
  sound {ts x rest} h := by
    unfold parseItemOption at h
    repeat' split at h
    all_goals
      first
      | (cases h; done)
      | (rw [parseEntry_some] at h
         obtain ⟨us, rfl, n, hn, ⟨rfl, rfl⟩ | ⟨vs, os, rfl, hl, rfl⟩⟩ := h
         · exact ⟨[_, _], by simp, .number hn, rfl⟩
         · exact ⟨[_, _], by simp, .entry hn hl, rfl⟩)
      | (simp only [Parser.map_some, valueOption_some, parseInt_some, parseBool_some] at h
         obtain ⟨_, ⟨_, rfl, h⟩, rfl⟩ := h
         first
         | (obtain ⟨hn, rfl⟩ := h; refine ⟨keyValue _ _, by simp [keyValue], ?_, rfl⟩; constructor; exact hn)
         | (subst h; refine ⟨keyValue _ _, by simp [keyValue], ?_, rfl⟩; constructor))
  complete {us x rest} hw _ := by
    cases hw with
    | number hn =>
      simp only [parseItemOption, List.cons_append, List.nil_append, peekKw_cons, beq_self_eq_true, if_true, peekParen2]
      exact parseEntry_some.2 ⟨_, rfl, _, hn, .inl ⟨rfl, rfl⟩⟩
    | entry hn hl =>
      simp only [parseItemOption, List.cons_append, List.nil_append, peekKw_cons, beq_self_eq_true, if_true, peekParen2]
      exact parseEntry_some.2 ⟨_, rfl, _, hn, .inr ⟨_, _, rfl, hl, rfl⟩⟩
    | revision hn =>
      simp [parseItemOption, keyValue, peekKw_cons, peekParen2, Parser.map_some, valueOption_some, parseInt_some, usizeBound]
      exact hn
    | _ => simp [parseItemOption, keyValue, peekKw_cons, Parser.map_some, valueOption_some, parseBool_some]

/-! ### Attributes -/

theorem isRevisionAttr_iff (content : List Tok) : isRevisionAttr content = true ↔ ForMacro content := by
  unfold isRevisionAttr ForMacro
  split
  · next s ts =>
    simp only [Bool.false_eq_true, List.cons.injEq, Tok.ident.injEq, false_iff, not_exists, not_and]
    rintro us ⟨-, rfl⟩ h
    exact h _ rfl
  · next s ts hn =>
    simp only [beq_iff_eq, List.cons.injEq, Tok.ident.injEq]
    constructor
    · rintro rfl
      exact ⟨ts, ⟨rfl, rfl⟩, fun us h => hn us h⟩
    · rintro ⟨_, ⟨rfl, -⟩, -⟩; rfl
  · next h1 h2 =>
    simp only [Bool.false_eq_true, false_iff, not_exists, not_and]
    rintro ts rfl
    exact absurd rfl (h2 _ _)

theorem parseArgs_some {p : Parser α} {w : α → List Tok → Prop} (h : Parses p w) {content : List Tok} {os : List α}
    (hc : ForMacro content) : parseArgs p content = some os ↔ ∃ us group, CommaList w os us ∧
      (group = .paren us ∨ group = .bracket us ∨ group = .brace us) ∧ content = [.ident "revision", group] := by
  obtain ⟨ts, rfl, -⟩ := hc
  constructor
  · intro ho
    unfold parseArgs at ho
    split at ho
    · next e => cases e; exact ⟨_, _, (parseTerminated_iff h _ _).1 ho, .inl rfl, rfl⟩
    · next e => cases e; exact ⟨_, _, (parseTerminated_iff h _ _).1 ho, .inr (.inl rfl), rfl⟩
    · next e => cases e; exact ⟨_, _, (parseTerminated_iff h _ _).1 ho, .inr (.inr rfl), rfl⟩
    · cases ho
  · rintro ⟨us, group, hl, rfl | rfl | rfl, e⟩ <;> (rw [e]; exact (parseTerminated_iff h _ _).2 hl)

theorem parseAttrs_cons (p : Parser α) (content ts : List Tok) :
    parseAttrs p (.punct '#' :: .bracket content :: ts) =
      (parseAttrs p ts).bind fun (oss, rest) =>
        if isRevisionAttr content then (parseArgs p content).bind fun os => some (os :: oss, rest) else some (oss, rest) := by
  unfold parseAttrs
  rw [parseOuter]
  cases parseOuter ts with
  | none => rfl
  | some q =>
    obtain ⟨as, rest⟩ := q
    simp only [Option.bind_eq_bind, Option.bind_some, pure, filterAttrs]
    split
    · cases parseArgs p content with
      | none => cases filterAttrs p as <;> rfl
      | some os => cases filterAttrs p as <;> rfl
    · cases filterAttrs p as <;> rfl

theorem parseAttrs_stop (p : Parser α) {ts : List Tok} (h : ∀ us, ts ≠ .punct '#' :: us) :
    parseAttrs p ts = some ([], ts) := by
  have : parseOuter ts = some ([], ts) := by
    unfold parseOuter
    split
    · exact absurd rfl (h _)
    · exact absurd rfl (h _)
    · rfl
  unfold parseAttrs
  rw [this]
  rfl

theorem parseAttrs_sound {p : Parser α} {w : α → List Tok → Prop} (h : Parses p w) {ts rest : List Tok}
    {oss : List (List α)} (ho : parseAttrs p ts = some (oss, rest)) :
    ∃ us, AttrsWritten w oss us ∧ ts = us ++ rest := by
  induction hn : ts.length using Nat.strongRecOn generalizing ts oss with
  | _ n ih =>
    by_cases hh : ∃ us, ts = .punct '#' :: us
    · obtain ⟨us, rfl⟩ := hh
      by_cases hb : ∃ content vs, us = .bracket content :: vs
      · obtain ⟨content, vs, rfl⟩ := hb
        rw [parseAttrs_cons, Option.bind_eq_some_iff] at ho
        obtain ⟨⟨oss', rest'⟩, ho', ho⟩ := ho
        by_cases hr : isRevisionAttr content
        · simp only [hr, if_true, Option.bind_eq_some_iff, Option.some.injEq, Prod.mk.injEq] at ho
          obtain ⟨os, ha, rfl, rfl⟩ := ho
          obtain ⟨us, hw, e⟩ := ih vs.length (by simp only [List.length_cons] at hn; omega) ho' rfl
          obtain ⟨us', group, hl, hg, rfl⟩ := (parseArgs_some h ((isRevisionAttr_iff _).1 hr)).1 ha
          exact ⟨_, .list hl hg hw, by rw [e]; rfl⟩
        · simp only [hr, Bool.false_eq_true, if_false, Option.some.injEq, Prod.mk.injEq] at ho
          obtain ⟨rfl, rfl⟩ := ho
          obtain ⟨us, hw, e⟩ := ih vs.length (by simp only [List.length_cons] at hn; omega) ho' rfl
          exact ⟨_, .other (fun hf => hr ((isRevisionAttr_iff _).2 hf)) hw, by rw [e]; rfl⟩
      · exfalso
        have : parseOuter (.punct '#' :: us) = none := by
          unfold parseOuter
          split
          · next e => cases e; exact absurd ⟨_, _, rfl⟩ hb
          · rfl
          · next h1 h2 => exact absurd rfl (h2 _)
        unfold parseAttrs at ho
        rw [this] at ho
        cases ho
    · rw [parseAttrs_stop p fun us e => hh ⟨us, e⟩] at ho
      cases ho
      exact ⟨[], .nil, rfl⟩

theorem parseAttrs_complete {p : Parser α} {w : α → List Tok → Prop} (h : Parses p w) {us : List Tok}
    {oss : List (List α)} (hw : AttrsWritten w oss us) {rest : List Tok} (hr : ∀ vs, rest ≠ .punct '#' :: vs) :
    parseAttrs p (us ++ rest) = some (oss, rest) := by
  induction hw with
  | nil => exact parseAttrs_stop p hr
  | @other content oss ts hc _ ih =>
    rw [List.cons_append, List.cons_append, parseAttrs_cons, ih, Option.bind_some]
    dsimp only
    rw [if_neg fun hf => hc ((isRevisionAttr_iff _).1 hf)]
  | @list os us group oss ts hl hg _ ih =>
    have hf : ForMacro [.ident "revision", group] := ⟨_, rfl, fun vs e => by rcases hg with rfl | rfl | rfl <;> cases e⟩
    rw [List.cons_append, List.cons_append, parseAttrs_cons, ih, Option.bind_some]
    dsimp only
    rw [if_pos ((isRevisionAttr_iff _).2 hf), (parseArgs_some h hf).2 ⟨us, group, hl, hg, rfl⟩, Option.bind_some]

/-! ### Fields -/

theorem parseVis_sound (ts : List Tok) : ∃ vis, VisWritten vis ∧ ts = vis ++ parseVis ts := by
  unfold parseVis
  split
  · exact ⟨[_], .inr ⟨_, rfl⟩, rfl⟩
  · exact ⟨[], .inl rfl, rfl⟩

theorem parseVis_complete {vis rest : List Tok} (h : VisWritten vis) (hr : ∀ s us, rest ≠ .vis s :: us) :
    parseVis (vis ++ rest) = rest := by
  rcases h with rfl | ⟨s, rfl⟩
  · rw [List.nil_append]
    unfold parseVis
    split
    · exact absurd rfl (hr _ _)
    · rfl
  · rfl

theorem VisWritten.no_hash {vis rest : List Tok} (h : VisWritten vis) (hr : ∀ us, rest ≠ .punct '#' :: us) :
    ∀ us, vis ++ rest ≠ .punct '#' :: us := by
  rcases h with rfl | ⟨s, rfl⟩
  · exact hr
  · intro us e; cases e

theorem parseNamed_parses : Parses parseNamed NamedWritten where
  sound {ts x rest} h := by
    unfold parseNamed at h
    simp only [Option.bind_eq_bind, Option.bind_eq_some_iff, pure, Option.some.injEq, Prod.mk.injEq] at h
    obtain ⟨⟨attrs, r1⟩, h1, ⟨name, r2⟩, h2, r3, h3, ⟨ty, r4⟩, h4, rfl, rfl⟩ := h
    obtain ⟨as, ha, rfl⟩ := parseAttrs_sound parseFieldOption_parses h1
    obtain ⟨vis, hvis, e⟩ := parseVis_sound r1
    rw [parseIdent_some] at h2
    rw [parsePunct_some] at h3
    rw [parseType_some] at h4
    obtain ⟨hk, h2⟩ := h2
    refine ⟨_, ?_, .mk ha hvis hk, ?_⟩
    · simp
    · rw [e]
      dsimp only at h2 h3 h4 ⊢
      rw [h2, h3, h4]
      simp
  complete {us x rest} hw _ := by
    obtain ⟨ha, hvis, hk⟩ := hw
    rename_i attrs as vis name ty
    unfold parseNamed
    have e : as ++ vis ++ [.ident name, .punct ':', .type ty] ++ rest =
        as ++ (vis ++ (.ident name :: .punct ':' :: .type ty :: rest)) := by simp
    rw [e, parseAttrs_complete parseFieldOption_parses ha (hvis.no_hash (by simp))]
    have ev : parseVis (vis ++ (.ident name :: .punct ':' :: .type ty :: rest)) = _ := parseVis_complete hvis (by simp)
    simp only [Option.bind_eq_bind, Option.bind_some, ev, parseIdent_some.2 ⟨hk, rfl⟩, parsePunct_some.2 rfl, parseType_some.2 rfl, pure]

/-- Fields of tuples, before they get their names. -/
inductive TupleWritten : FieldSrc → List Tok → Prop where
  | mk {attrs as vis ty} : AttrsWritten FieldOption.Written attrs as → VisWritten vis →
      TupleWritten ⟨"field_0", ty, attrs⟩ (as ++ vis ++ [.type ty])

theorem parseUnnamed_parses : Parses parseUnnamed TupleWritten where
  sound {ts x rest} h := by
    unfold parseUnnamed at h
    simp only [Option.bind_eq_bind, Option.bind_eq_some_iff, pure, Option.some.injEq, Prod.mk.injEq] at h
    obtain ⟨⟨attrs, r1⟩, h1, ⟨ty, r4⟩, h4, rfl, rfl⟩ := h
    obtain ⟨as, ha, rfl⟩ := parseAttrs_sound parseFieldOption_parses h1
    obtain ⟨vis, hvis, e⟩ := parseVis_sound r1
    rw [parseType_some] at h4
    refine ⟨_, ?_, .mk ha hvis, ?_⟩
    · simp
    · rw [e]
      dsimp only at h4 ⊢
      rw [h4]
      simp
  complete {us x rest} hw _ := by
    obtain ⟨ha, hvis⟩ := hw
    rename_i attrs as vis ty
    unfold parseUnnamed
    have e : as ++ vis ++ [.type ty] ++ rest = as ++ (vis ++ (.type ty :: rest)) := by simp
    rw [e, parseAttrs_complete parseFieldOption_parses ha (hvis.no_hash (by simp))]
    have ev : parseVis (vis ++ (.type ty :: rest)) = _ := parseVis_complete hvis (by simp)
    simp only [Option.bind_eq_bind, Option.bind_some, ev, parseType_some.2 rfl, pure]

theorem CommaList.imp {w : α → List Tok → Prop} {w' : β → List Tok → Prop} {xs : List α} {ts : List Tok}
    (h : CommaList w xs ts) (f : α → β) (hf : ∀ x us, w x us → w' (f x) us) : CommaList w' (xs.map f) ts := by
  induction h with
  | nil => exact .nil
  | last hw => exact .last (hf _ _ hw)
  | cons hw _ ih => exact .cons (hf _ _ hw) ih

theorem CommaList.mapIdx {w : α → List Tok → Prop} {w' : β → List Tok → Prop} {xs : List α} {ts : List Tok}
    (h : CommaList w xs ts) (f : Nat → α → β) (hf : ∀ i x us, w x us → w' (f i x) us) : CommaList w' (xs.mapIdx f) ts := by
  induction h generalizing f with
  | nil => exact .nil
  | last hw => exact .last (hf _ _ _ hw)
  | cons hw _ ih =>
    rw [List.mapIdx_cons]
    exact .cons (hf _ _ _ hw) (ih _ fun i x us => hf (i + 1) x us)

theorem numberFields_numbered (fs : List FieldSrc) : Numbered (numberFields fs) := by
  intro i f h
  unfold numberFields at h
  rw [List.getElem?_mapIdx] at h
  cases hf : fs[i]? with
  | none => rw [hf] at h; cases h
  | some g => rw [hf] at h; cases h; rfl

/-- A tuple's fields: with the names they get, they are as the grammar says. -/
theorem tuple_iff (ts : List Tok) (fs : List FieldSrc) :
    (∃ gs, CommaList TupleWritten gs ts ∧ numberFields gs = fs) ↔ CommaList UnnamedWritten fs ts ∧ Numbered fs := by
  constructor
  · rintro ⟨gs, h, rfl⟩
    refine ⟨h.mapIdx _ fun i x us hw => ?_, numberFields_numbered gs⟩
    obtain ⟨ha, hv⟩ := hw
    exact .mk ha hv
  · rintro ⟨h, hn⟩
    refine ⟨fs.map fun f => { f with name := "field_0" }, h.imp _ fun x us hw => ?_, ?_⟩
    · obtain ⟨ha, hv⟩ := hw; exact .mk ha hv
    · refine List.ext_getElem? fun i => ?_
      unfold numberFields
      rw [List.getElem?_mapIdx, List.getElem?_map]
      cases hf : fs[i]? with
      | none => rfl
      | some f =>
        have := hn i f hf
        obtain ⟨name, ty, attrs⟩ := f
        simp only [Option.map_some]
        dsimp only at this
        rw [this]

/-! ### Items -/

theorem parseVariantSrc_parses : Parses parseVariantSrc VariantWritten where
  sound {ts x rest} h := by
    unfold parseVariantSrc at h
    simp only [Option.bind_eq_bind, Option.bind_eq_some_iff] at h
    obtain ⟨⟨attrs, r1⟩, h1, ⟨ident, r2⟩, h2, ⟨fields, r3⟩, h3, h4⟩ := h
    obtain ⟨as, ha, rfl⟩ := parseAttrs_sound parseVariantOption_parses h1
    rw [parseIdent_some] at h2
    obtain ⟨hk, h2⟩ := h2
    dsimp only at h2 h3 h4
    subst h2
    have h4 : x = ⟨ident, attrs, fields⟩ ∧ rest = r3 := by
      split at h4
      · simp [parsePunct] at h4
      · cases h4; exact ⟨rfl, rfl⟩
    obtain ⟨rfl, rfl⟩ := h4
    unfold parseVariantFields at h3
    split at h3
    · simp only [Option.bind_eq_bind, Option.bind_eq_some_iff, pure, Option.some.injEq, Prod.mk.injEq] at h3
      obtain ⟨gs, hg, e, rfl⟩ := h3
      rw [parseTerminated_iff parseUnnamed_parses] at hg
      obtain ⟨hl, hn⟩ := (tuple_iff _ _).1 ⟨gs, hg, e⟩
      exact ⟨_, by simp, .tuple ha hk hl hn, by simp⟩
    · simp only [Option.bind_eq_bind, Option.bind_eq_some_iff, pure, Option.some.injEq, Prod.mk.injEq] at h3
      obtain ⟨gs, hg, rfl, rfl⟩ := h3
      rw [parseTerminated_iff parseNamed_parses] at hg
      exact ⟨_, by simp, .struct ha hk hg, by simp⟩
    · cases h3
      exact ⟨_, by simp, .unit ha hk, by simp⟩
  complete {us x rest} hw hs := by
    unfold parseVariantSrc
    cases hw with
    | @unit attrs as ident ha hk =>
      rw [List.append_assoc, parseAttrs_complete parseVariantOption_parses ha (by simp)]
      simp only [Option.bind_eq_bind, Option.bind_some, List.cons_append, List.nil_append, parseIdent_some.2 ⟨hk, rfl⟩]
      rcases hs with rfl | ⟨r, rfl⟩ <;> rfl
    | @tuple attrs as ident fs ts ha hk hl hn =>
      obtain ⟨gs, hg, e⟩ := (tuple_iff _ _).2 ⟨hl, hn⟩
      rw [List.append_assoc, parseAttrs_complete parseVariantOption_parses ha (by simp)]
      simp only [Option.bind_eq_bind, Option.bind_some, List.cons_append, List.nil_append, parseIdent_some.2 ⟨hk, rfl⟩,
        parseVariantFields, (parseTerminated_iff parseUnnamed_parses _ _).2 hg, pure, e]
      rcases hs with rfl | ⟨r, rfl⟩ <;> rfl
    | @struct attrs as ident fs ts ha hk hl =>
      rw [List.append_assoc, parseAttrs_complete parseVariantOption_parses ha (by simp)]
      simp only [Option.bind_eq_bind, Option.bind_some, List.cons_append, List.nil_append, parseIdent_some.2 ⟨hk, rfl⟩,
        parseVariantFields, (parseTerminated_iff parseNamed_parses _ _).2 hl, pure]
      rcases hs with rfl | ⟨r, rfl⟩ <;> rfl

theorem parseGenerics_sound (ts : List Tok) : ∃ g, GenericsWritten g ∧ ts = g ++ parseGenerics ts := by
  unfold parseGenerics
  split
  · exact ⟨[_], .inr ⟨_, rfl⟩, rfl⟩
  · exact ⟨[], .inl rfl, rfl⟩

theorem parseGenerics_complete {g rest : List Tok} (h : GenericsWritten g) (hr : ∀ s us, rest ≠ .generics s :: us) :
    parseGenerics (g ++ rest) = rest := by
  rcases h with rfl | ⟨s, rfl⟩
  · rw [List.nil_append]
    unfold parseGenerics
    split
    · exact absurd rfl (hr _ _)
    · rfl
  · rfl

theorem parseStruct_sound {ts rest : List Tok} {x : BodySrc} (h : parseStruct ts = some (x, rest)) :
    ∃ us, BodyWritten x us ∧ ts = us ++ rest := by
  unfold parseStruct at h
  simp only [Option.bind_eq_bind, Option.bind_eq_some_iff] at h
  obtain ⟨r1, h1, ⟨name, r2⟩, h2, h⟩ := h
  rw [parseKw_some] at h1
  rw [parseIdent_some] at h2
  obtain ⟨hk, h2⟩ := h2
  subst h1 h2
  obtain ⟨g, hg, e⟩ := parseGenerics_sound r2
  dsimp only at h
  generalize parseGenerics r2 = r at e h
  subst e
  split at h
  · simp only [Option.bind_eq_some_iff, pure, Option.some.injEq, Prod.mk.injEq] at h
    obtain ⟨gs, hgs, r', hr', e, rfl⟩ := h
    rw [parseTerminated_iff parseUnnamed_parses] at hgs
    rw [parsePunct_some] at hr'
    subst hr' e
    obtain ⟨hl, hn⟩ := (tuple_iff _ _).1 ⟨gs, hgs, rfl⟩
    exact ⟨_, .tuple hk hg hl hn, by simp⟩
  · simp only [Option.bind_eq_some_iff, pure, Option.some.injEq, Prod.mk.injEq] at h
    obtain ⟨gs, hgs, rfl, rfl⟩ := h
    rw [parseTerminated_iff parseNamed_parses] at hgs
    exact ⟨_, .struct hk hg hgs, by simp⟩
  · simp only [Option.bind_eq_some_iff, pure, Option.some.injEq, Prod.mk.injEq] at h
    obtain ⟨r', hr', rfl, rfl⟩ := h
    rw [parsePunct_some] at hr'
    subst hr'
    exact ⟨_, .unit hk hg, by simp⟩

theorem parseEnum_sound {ts rest : List Tok} {x : BodySrc} (h : parseEnum ts = some (x, rest)) :
    ∃ us, BodyWritten x us ∧ ts = us ++ rest := by
  unfold parseEnum at h
  simp only [Option.bind_eq_bind, Option.bind_eq_some_iff] at h
  obtain ⟨r1, h1, ⟨name, r2⟩, h2, h⟩ := h
  rw [parseKw_some] at h1
  rw [parseIdent_some] at h2
  obtain ⟨hk, h2⟩ := h2
  subst h1 h2
  obtain ⟨g, hg, e⟩ := parseGenerics_sound r2
  dsimp only at h
  generalize parseGenerics r2 = r at e h
  subst e
  split at h
  · simp only [Option.bind_eq_some_iff, pure, Option.some.injEq, Prod.mk.injEq] at h
    obtain ⟨vs, hvs, rfl, rfl⟩ := h
    rw [parseTerminated_iff parseVariantSrc_parses] at hvs
    exact ⟨_, .enum hk hg hvs, by simp⟩
  · cases h

theorem parseKind_sound {ts rest : List Tok} {x : BodySrc} (h : parseKind ts = some (x, rest)) :
    ∃ us, BodyWritten x us ∧ ts = us ++ rest := by
  unfold parseKind at h
  repeat' split at h
  · exact parseEnum_sound h
  · exact parseStruct_sound h
  · cases h

theorem parseKind_complete {us : List Tok} {x : BodySrc} (h : BodyWritten x us) : parseKind us = some (x, []) := by
  cases h with
  | @unit name g hk hg =>
    have eg : parseGenerics (g ++ [.punct ';']) = [.punct ';'] := parseGenerics_complete hg (by simp)
    simp only [List.cons_append, List.nil_append, parseKind, peekKw_cons, parseStruct, parseKw_some.2 rfl,
      parseIdent_some.2 ⟨hk, rfl⟩, Option.bind_eq_bind, Option.bind_some, eg, parsePunct_some.2 rfl, pure]
    rfl
  | @tuple name g fs ts hk hg hl hn =>
    obtain ⟨gs, hgs, e⟩ := (tuple_iff _ _).2 ⟨hl, hn⟩
    have eg : parseGenerics (g ++ [.paren ts, .punct ';']) = [.paren ts, .punct ';'] := parseGenerics_complete hg (by simp)
    simp only [List.cons_append, List.nil_append, parseKind, peekKw_cons, parseStruct, parseKw_some.2 rfl,
      parseIdent_some.2 ⟨hk, rfl⟩, Option.bind_eq_bind, Option.bind_some, eg, parsePunct_some.2 rfl, pure,
      (parseTerminated_iff parseUnnamed_parses _ _).2 hgs, e]
    rfl
  | @struct name g fs ts hk hg hl =>
    have eg : parseGenerics (g ++ [.brace ts]) = [.brace ts] := parseGenerics_complete hg (by simp)
    simp only [List.cons_append, List.nil_append, parseKind, peekKw_cons, parseStruct, parseKw_some.2 rfl,
      parseIdent_some.2 ⟨hk, rfl⟩, Option.bind_eq_bind, Option.bind_some, eg, pure,
      (parseTerminated_iff parseNamed_parses _ _).2 hl]
    rfl
  | @enum name g vs ts hk hg hl =>
    have eg : parseGenerics (g ++ [.brace ts]) = [.brace ts] := parseGenerics_complete hg (by simp)
    simp only [List.cons_append, List.nil_append, parseKind, peekKw_cons, parseEnum, parseKw_some.2 rfl,
      parseIdent_some.2 ⟨hk, rfl⟩, Option.bind_eq_bind, Option.bind_some, eg, pure,
      (parseTerminated_iff parseVariantSrc_parses _ _).2 hl]
    rfl

theorem BodyWritten.head {x : BodySrc} {us : List Tok} (h : BodyWritten x us) : ∃ s vs, us = .ident s :: vs := by
  cases h <;> exact ⟨_, _, rfl⟩

theorem parseItem_iff (args item : List Tok) (s : ItemSrc) : parseItem args item = some s ↔ s.Written args item := by
  unfold parseItem
  constructor
  · intro h
    simp only [Option.bind_eq_bind, Option.bind_eq_some_iff] at h
    obtain ⟨as, ha, ⟨attrs, r1⟩, h1, ⟨body, r2⟩, h2, h⟩ := h
    rw [parseTerminated_iff parseItemOption_parses] at ha
    obtain ⟨us, hw, rfl⟩ := parseAttrs_sound parseItemOption_parses h1
    obtain ⟨vis, hvis, e⟩ := parseVis_sound r1
    obtain ⟨bs, hb, eb⟩ := parseKind_sound h2
    dsimp only at h
    split at h
    · cases h
      refine ⟨ha, us, vis, bs, hw, hvis, hb, ?_⟩
      rw [e, eb]
      simp
    · cases h
  · rintro ⟨ha, us, vis, bs, hw, hvis, hb, rfl⟩
    obtain ⟨k, vs, rfl⟩ := hb.head
    rw [List.append_assoc, parseAttrs_complete parseItemOption_parses hw (hvis.no_hash (by simp))]
    have ev : parseVis (vis ++ .ident k :: vs) = .ident k :: vs := parseVis_complete hvis (by simp)
    simp only [(parseTerminated_iff parseItemOption_parses _ _).2 ha, Option.bind_eq_bind, Option.bind_some, ev,
      parseKind_complete hb, pure]

/-! ### Numbers -/

theorem CommaList.forall {w : α → List Tok → Prop} {p : α → Prop} (hw : ∀ x us, w x us → p x) {xs : List α} {ts : List Tok}
    (h : CommaList w xs ts) : ∀ x ∈ xs, p x := by
  induction h with
  | nil => nofun
  | last ha =>
    intro x hx
    rw [List.mem_singleton.1 hx]
    exact hw _ _ ha
  | cons ha _ ih =>
    intro x hx
    rcases List.mem_cons.1 hx with rfl | hx
    · exact hw _ _ ha
    · exact ih x hx

theorem AttrsWritten.forall {w : α → List Tok → Prop} {p : α → Prop} (hw : ∀ x us, w x us → p x) {oss : List (List α)}
    {ts : List Tok} (h : AttrsWritten w oss ts) : ∀ x ∈ oss.flatten, p x := by
  induction h with
  | nil => nofun
  | other _ _ ih => exact ih
  | list hl _ _ ih =>
    intro x hx
    rw [List.flatten_cons, List.mem_append] at hx
    rcases hx with hx | hx
    · exact hl.forall hw x hx
    · exact ih x hx

theorem VariantOptions.set_overrides : ∀ (os : List VariantOption) (o : VariantOptions),
    ∀ p ∈ (os.foldl VariantOptions.set o).overrides, p ∈ o.overrides ∨ ∃ x ∈ os, x.overrideOf = some p
  | [], _, _, h => .inl h
  | x :: os, o, p, h => by
    rcases VariantOptions.set_overrides os (o.set x) p h with h | ⟨y, hy, e⟩
    · cases x with
      | override ov =>
        simp only [VariantOptions.set] at h
        rcases List.mem_append.1 h with h | h
        · exact .inr ⟨_, List.mem_cons_self .., Option.mem_toList.1 h⟩
        · exact .inl h
      | _ => exact .inl h
    · exact .inr ⟨y, List.mem_cons_of_mem _ hy, e⟩

/-- The discriminants an enum asks for fit their 32 bits. -/
theorem BodyWritten.overrides {vs : List VariantSrc} {us : List Tok} (h : BodyWritten (.enum vs) us) :
    ∀ v ∈ vs, ∀ p ∈ (readVariant v).opts.overrides, ∀ d, p.2 = some d → d < 2 ^ 32 := by
  obtain _ | _ | _ | ⟨_, _, hl⟩ := h
  refine hl.forall fun v us hv p hp d hd => ?_
  have hov : ∀ x ∈ v.attrs.flatten, ∀ q, x.overrideOf = some q → ∀ d, q.2 = some d → d < 2 ^ 32 := by
    have hw : ∀ (x : VariantOption) us, VariantOption.Written x us → ∀ q, x.overrideOf = some q → ∀ d, q.2 = some d → d < 2 ^ 32 := by
      intro x us hx q hq d hd
      cases hx with
      | override hl =>
        simp only [VariantOption.overrideOf, Option.map_eq_some_iff] at hq
        obtain ⟨r, -, rfl⟩ := hq
        have hm := List.mem_of_head? hd
        unfold overrideDiscs at hm
        rw [List.mem_filterMap] at hm
        obtain ⟨o, ho, e⟩ := hm
        refine hl.forall (p := fun o => ∀ d, o = .discriminant d → d < 2 ^ 32) ?_ o ho d ?_
        · intro o us ho d e
          cases ho with
          | discriminant hn => cases e; exact hn
          | revision => cases e
        · cases o with
          | discriminant => cases e; rfl
          | revision => cases e
      | _ => cases hq
    cases hv with
    | unit ha => exact ha.forall hw
    | tuple ha => exact ha.forall hw
    | struct ha => exact ha.forall hw
  rcases VariantOptions.set_overrides _ _ p hp with h | ⟨x, hx, e⟩
  · cases h
  · exact hov x hx p e d hd

end Revision
