import Verif.Proofs.Macro

/-! # Lemmas for `C97`: the macro does not panic -/

namespace Revision

/-- Neither a panic of the macro nor the error that stands in for one. -/
def NP (x : Except MacroErr α) : Prop := x ≠ .error .panicked ∧ x ≠ .error .convertMissing

theorem NP_ok (a : α) : NP (.ok a) := ⟨nofun, nofun⟩

theorem NP_of_ok {x : Except MacroErr α} {a : α} (h : x = .ok a) : NP x := h ▸ NP_ok a

theorem NP_error {e : MacroErr} (h1 : e ≠ .panicked) (h2 : e ≠ .convertMissing) : NP (.error e : Except MacroErr α) :=
  ⟨fun h => h1 (by cases h; rfl), fun h => h2 (by cases h; rfl)⟩

theorem NP_cast {e : MacroErr} (h : NP (.error e : Except MacroErr α)) : NP (.error e : Except MacroErr β) :=
  NP_error (fun he => h.1 (by rw [he])) (fun he => h.2 (by rw [he]))

theorem NP_bind {x : Except MacroErr α} {f : α → Except MacroErr β} (hx : NP x) (hf : ∀ a, x = .ok a → NP (f a)) :
    NP (x >>= f) := by
  cases x with
  | error e => exact NP_cast hx
  | ok a => exact hf a rfl

theorem NP_andAlso {x y : Except MacroErr Unit} (hx : NP x) (hy : x = .ok () → NP y) : NP (andAlso x y) := by
  cases x with
  | error e => exact hx
  | ok a => exact hy rfl

theorem NP_eachOk {f : α → Except MacroErr Unit} : ∀ {l : List α}, (∀ x ∈ l, NP (f x)) → NP (eachOk f l)
  | [], _ => NP_ok _
  | x :: xs, h => by
    have hx := h x (by simp)
    unfold eachOk
    cases hf : f x with
    | error e => rw [hf] at hx; exact hx
    | ok u => exact NP_eachOk fun y hy => h y (List.mem_cons_of_mem _ hy)

theorem NP_require (b : Bool) {e : MacroErr} (h1 : e ≠ .panicked) (h2 : e ≠ .convertMissing) : NP (require b e) := by
  unfold require
  split
  · exact NP_ok _
  · exact NP_error h1 h2

theorem NP_collectOk {f : α → Except MacroErr β} (hf : ∀ x, NP (f x)) : ∀ l : List α, NP (collectOk f l)
  | [] => NP_ok _
  | x :: xs => by
    have hx := hf x
    have ih := NP_collectOk hf xs
    unfold collectOk
    cases h : f x with
    | error e => rw [h] at hx; exact NP_cast hx
    | ok y =>
      simp only []
      cases h' : collectOk f xs with
      | error e => rw [h'] at ih; exact ih
      | ok ys => exact NP_ok _

theorem NP_fieldSteps : ∀ (os : List FieldOption) (o : FieldOptions), NP (o.steps os)
  | [], _ => NP_ok _
  | x :: xs, o => by
    have hx : NP (o.step x) := by
      cases x <;> unfold FieldOptions.step <;> dsimp only <;> (repeat' split) <;>
        first | exact NP_ok _ | exact NP_error nofun nofun
    unfold FieldOptions.steps
    cases h : o.step x with
    | error e => rw [h] at hx; exact hx
    | ok o' => exact NP_fieldSteps xs o'

theorem NP_fieldFinish (os : List FieldOption) : NP (FieldOptions.finish os) := by
  have h := NP_fieldSteps os {}
  unfold FieldOptions.finish
  cases hs : FieldOptions.steps {} os with
  | error e => rw [hs] at h; exact h
  | ok o =>
    simp only []
    split
    · exact NP_error nofun nofun
    · exact NP_ok _

theorem NP_overrideLoop : ∀ (os : List VariantOverride) (d r : Option Nat), NP (overrideLoop os d r)
  | [], _, _ => NP_ok _
  | .discriminant x :: os, d, r => by
    unfold overrideLoop
    split
    · exact NP_error nofun nofun
    · exact NP_overrideLoop os _ _
  | .revision x :: os, d, r => by
    unfold overrideLoop
    split
    · exact NP_error nofun nofun
    · exact NP_overrideLoop os _ _

theorem NP_variantSteps : ∀ (os : List VariantOption) (o : VariantOptions), NP (o.steps os)
  | [], _ => NP_ok _
  | x :: xs, o => by
    have hx : NP (o.step x) := by
      cases x with
      | override ov =>
        have := NP_overrideLoop ov none none
        unfold VariantOptions.step
        simp only []
        cases h : overrideLoop ov none none with
        | error e => rw [h] at this; exact NP_cast this
        | ok p =>
          obtain ⟨d, r⟩ := p
          cases r with
          | none => exact NP_error nofun nofun
          | some r => exact NP_ok _
      | _ =>
        unfold VariantOptions.step
        dsimp only
        split
        · exact NP_error nofun nofun
        · exact NP_ok _
    unfold VariantOptions.steps
    cases h : o.step x with
    | error e => rw [h] at hx; exact hx
    | ok o' => exact NP_variantSteps xs o'

theorem NP_variantFinish (os : List VariantOption) : NP (VariantOptions.finish os) := by
  have h := NP_variantSteps os {}
  unfold VariantOptions.finish
  cases hs : VariantOptions.steps {} os with
  | error e => rw [hs] at h; exact h
  | ok o =>
    simp only []
    split
    · exact NP_error nofun nofun
    · exact NP_ok _

theorem NP_parseField (f : FieldSrc) : NP (parseField f) := by
  have h := NP_fieldFinish f.attrs.flatten
  unfold parseField
  cases hs : FieldOptions.finish f.attrs.flatten with
  | error e => rw [hs] at h; exact NP_cast h
  | ok o => exact NP_ok _

theorem NP_parseVariant (v : VariantSrc) : NP (parseVariant v) := by
  have h := NP_variantFinish v.attrs.flatten
  have h' := NP_collectOk NP_parseField v.fields
  unfold parseVariant
  cases hs : VariantOptions.finish v.attrs.flatten with
  | error e => rw [hs] at h; exact NP_cast h
  | ok o =>
    simp only []
    cases hs' : collectOk parseField v.fields with
    | error e => rw [hs'] at h'; exact NP_cast h'
    | ok fs => exact NP_ok _

theorem NP_parseBody (b : BodySrc) : NP (parseBody b) := by
  cases b with
  | struct fs =>
    have h := NP_collectOk NP_parseField fs
    unfold parseBody
    simp only []
    cases hs : collectOk parseField fs with
    | error e => rw [hs] at h; exact NP_cast h
    | ok fs => exact NP_ok _
  | enum vs =>
    have h := NP_collectOk NP_parseVariant vs
    unfold parseBody
    simp only []
    cases hs : collectOk parseVariant vs with
    | error e => rw [hs] at h; exact NP_cast h
    | ok fs => exact NP_ok _

theorem NP_entryLoop : ∀ (os : List EntryOption) (e : Entry), NP (entryLoop e os)
  | [], _ => NP_ok _
  | .optimised :: os, e => NP_entryLoop os _
  | .indexedStruct :: os, e => NP_entryLoop os _
  | .map s :: os, e => by
    unfold entryLoop
    split
    · exact NP_entryLoop os e
    · split <;> exact NP_error nofun nofun
  | .seq s :: os, e => by
    unfold entryLoop
    split
    · exact NP_entryLoop os e
    · split <;> exact NP_error nofun nofun

theorem NP_buildEntry (n : Nat) (os : List EntryOption) : NP (buildEntry n os) := by
  have h := NP_entryLoop os (Entry.legacy n)
  unfold buildEntry
  cases hs : entryLoop (Entry.legacy n) os with
  | error e => rw [hs] at h; exact h
  | ok e =>
    simp only []
    split
    · exact NP_error nofun nofun
    · exact NP_ok _

theorem NP_itemSteps : ∀ (os : List ItemOption) (a : ItemAcc), NP (a.steps os)
  | [], _ => NP_ok _
  | x :: xs, a => by
    have hx : NP (a.step x) := by
      cases x with
      | entry n eos =>
        have := NP_buildEntry n eos
        unfold ItemAcc.step
        simp only []
        cases h : buildEntry n eos with
        | error e => rw [h] at this; exact NP_cast this
        | ok e => exact NP_ok _
      | serialize b => exact NP_ok _
      | deserialize b => exact NP_ok _
      | _ =>
        unfold ItemAcc.step
        dsimp only
        split
        · exact NP_error nofun nofun
        · exact NP_ok _
    unfold ItemAcc.steps
    cases h : a.step x with
    | error e => rw [h] at hx; exact hx
    | ok a' => exact NP_itemSteps xs a'

theorem NP_contiguous : ∀ (es : List Entry) (i : Nat) (p : Option Nat), NP (contiguous i p es)
  | [], _, _ => NP_ok _
  | e :: es, i, p => by
    unfold contiguous
    split
    · split <;> exact NP_error nofun nofun
    · exact NP_contiguous es _ _

theorem NP_resolveHistory (l : Option Nat) (es : List Entry) : NP (resolveHistory l es) := by
  unfold resolveHistory
  split
  · exact NP_error nofun nofun
  · split
    · exact NP_error nofun nofun
    · exact NP_ok _
  · rename_i e es
    have := NP_contiguous (sortEntries (e :: es)) 0 none
    simp only []
    cases h : contiguous 0 none (sortEntries (e :: es)) with
    | error x => rw [h] at this; exact NP_cast this
    | ok u => exact NP_ok _
  · exact NP_ok _

theorem NP_itemFinish (os : List ItemOption) : NP (ItemOptions.finish os) := by
  have h := NP_itemSteps os {}
  unfold ItemOptions.finish
  cases hs : ItemAcc.steps {} os with
  | error e => rw [hs] at h; exact NP_cast h
  | ok a =>
    have h' := NP_resolveHistory a.revision a.entries
    simp only []
    cases hr : resolveHistory a.revision a.entries with
    | error e => rw [hr] at h'; exact NP_cast h'
    | ok g => exact NP_ok _

theorem NP_itemHistory (i d : List Entry) : NP (itemHistory i d) := by
  have hc : ∀ h, NP (itemHistory.check h) := by
    intro h
    unfold itemHistory.check
    (repeat' split) <;> first | exact NP_ok _ | exact NP_error nofun nofun
  unfold itemHistory
  split
  · exact NP_error nofun nofun
  · exact NP_error nofun nofun
  · exact hc _
  · exact hc _

theorem NP_calcDiscs (r : Nat) (vs : List VariantSig) : NP (calcDiscs r vs) := by
  unfold calcDiscs
  rw [gatherOverrides_eq]
  by_cases h : ((explicitDiscs r vs).map (·.2)).Nodup ∧ ∀ d ∈ (explicitDiscs r vs).map (·.2), d ∉ ([] : List Nat)
  · rw [if_pos h]; exact NP_ok _
  · rw [if_neg h]; exact NP_error nofun nofun

theorem NP_withDiscs {r : Nat} {vs : List VariantAst} {k : Discs → Except MacroErr Unit}
    (hk : ∀ D, calcDiscs r (vs.map VariantAst.sig) = .ok D → NP (k D)) : NP (withDiscs r vs k) := by
  have h := NP_calcDiscs r (vs.map VariantAst.sig)
  unfold withDiscs
  cases hc : calcDiscs r (vs.map VariantAst.sig) with
  | error e => rw [hc] at h; exact NP_cast h
  | ok D => exact hk D hc

theorem NP_validateOptimised (r : Nat) (vs : List VariantSig) : NP (validateOptimised r vs) := by
  have h := NP_calcDiscs r vs
  unfold validateOptimised
  simp only []
  split
  · exact NP_error nofun nofun
  · split
    · exact NP_error nofun nofun
    · cases hc : calcDiscs r vs with
      | error e => rw [hc] at h; exact NP_cast h
      | ok D =>
        simp only []
        split
        · exact NP_error nofun nofun
        · exact NP_ok _

theorem NP_fixed (fs : List FieldAst) : NP (eachOk fixedField fs) :=
  NP_eachOk fun _ _ => NP_require _ nofun nofun

theorem NP_checkRevisions (r : Nat) (b : BodyAst) : NP (checkRevisions r b) := by
  cases b <;> exact NP_require _ nofun nofun

theorem NP_checkOptimised (h : List Entry) (b : BodyAst) : NP (checkOptimised h b) := by
  cases b with
  | struct fs => exact NP_ok _
  | enum vs => exact NP_eachOk fun _ _ => NP_validateOptimised _ _

theorem NP_expectDisc {r : Nat} {vs : List VariantAst} {D : Discs}
    (hD : calcDiscs r (vs.map VariantAst.sig) = .ok D) {v : VariantAst}
    (hv : v ∈ vs.filter (·.existsAt r)) : NP (expectDisc D v) := by
  obtain ⟨hv, ha⟩ := List.mem_filter.1 hv
  exact NP_of_ok (expectDisc_ok r vs D hD v hv ha)

theorem NP_serializeVisit (e : Entry) (b : BodyAst) : NP (serializeVisit e b) := by
  cases b with
  | struct fs =>
    unfold serializeVisit
    dsimp only
    split
    · exact NP_ok _
    · exact NP_fixed _
  | enum vs =>
    refine NP_withDiscs fun D hD => ?_
    split
    · refine NP_andAlso (NP_require _ nofun nofun) fun _ => NP_andAlso (NP_require _ nofun nofun) fun _ =>
        NP_eachOk fun v hv => NP_andAlso (NP_expectDisc hD hv) fun _ =>
        NP_andAlso (NP_require _ nofun nofun) fun _ => NP_require _ nofun nofun
    · exact NP_eachOk fun v hv => NP_andAlso (NP_expectDisc hD hv) fun _ => NP_fixed _

theorem NP_skipVisit (e : Entry) (b : BodyAst) : NP (skipVisit e b) := by
  cases b with
  | struct fs =>
    unfold skipVisit
    dsimp only
    split
    · exact NP_ok _
    · exact NP_fixed _
  | enum vs =>
    refine NP_withDiscs fun D hD => ?_
    split
    · exact NP_andAlso (NP_require _ nofun nofun) fun _ =>
        NP_eachOk fun v hv => NP_andAlso (NP_expectDisc hD hv) fun _ => NP_require _ nofun nofun
    · exact NP_eachOk fun v hv => NP_andAlso (NP_fixed _) fun _ => NP_expectDisc hD hv

section
variable {h : List Entry} (hv : ValidHistory h)
include hv

theorem NP_deserializeVisit {b : BodyAst} (he : b.EndsConverted) {e : Entry} (hm : e ∈ h) :
    NP (deserializeVisit e (latest h) b) := by
  have hle : e.revision ≤ latest h := by rw [hv.latest_eq]; exact (hv.revision_le hm).2
  have hfit : latest h ≤ 65535 := by rw [hv.latest_eq]; exact hv.fits
  cases b with
  | struct fs =>
    have hcv : NP (eachOk (convertField e.revision (latest h)) fs) :=
      NP_eachOk fun f hf => NP_of_ok (convertField_ok _ _ f hle hfit (he f hf))
    unfold deserializeVisit
    dsimp only
    split
    · exact hcv
    · exact NP_andAlso (NP_fixed _) fun _ => hcv
  | enum vs =>
    have hcv : ∀ (x : MacroErr), ∀ v ∈ vs.filter (·.existsAt e.revision),
        require (v.existsAt (latest h) || v.opts.convert.isSome) x = .ok () := by
      intro x v hm'
      obtain ⟨hv', ha⟩ := List.mem_filter.1 hm'
      rw [require_iff, Bool.or_eq_true]
      by_cases ht : v.existsAt (latest h) = true
      · exact .inl ht
      · exact .inr ((he v hv').1 (ended _ _ e.revision (latest h) hle hfit ha (by simpa [VariantAst.existsAt] using ht)))
    refine NP_withDiscs fun D hD => ?_
    split
    · exact NP_andAlso (NP_require _ nofun nofun) fun _ => NP_eachOk fun v hm' =>
        NP_andAlso (NP_expectDisc hD hm') fun _ => NP_andAlso (NP_require _ nofun nofun) fun _ =>
        NP_of_ok (hcv _ v hm')
    · exact NP_eachOk fun v hm' => NP_andAlso (NP_fixed _) fun _ =>
        NP_andAlso (NP_eachOk fun f hf => NP_of_ok (convertField_ok _ _ f hle hfit
          ((he v (List.mem_filter.1 hm').1).2 f hf))) fun _ =>
        NP_andAlso (NP_expectDisc hD hm') fun _ => NP_of_ok (hcv _ v hm')

omit hv in
theorem NP_walkVisit {b : BodyAst} (ho : checkOptimised h b = .ok ()) (hp : b.PlainNames (latest h)) (se de : Bool) :
    NP (walkVisit h se de b) := by
  refine NP_andAlso (NP_require _ nofun nofun) fun _ => ?_
  cases b with
  | struct fs =>
    refine NP_of_ok (a := ()) ?_
    simp only [eachOk_iff, methodIdent_iff]
    intro f hf
    obtain ⟨hf, ha⟩ := List.mem_filter.1 hf
    exact hp f hf ha
  | enum vs =>
    refine NP_andAlso ?_ fun _ => NP_andAlso ?_ fun _ => NP_andAlso (NP_of_ok (a := ()) ?_) fun _ => ?_
    · refine NP_eachOk fun e he => NP_withDiscs fun D hD => NP_eachOk fun v hm' =>
        NP_andAlso (NP_expectDisc hD hm') fun hd => NP_andAlso (NP_require _ nofun nofun) fun _ => ?_
      obtain ⟨he, hop⟩ := List.mem_filter.1 he
      obtain ⟨-, -, D', hD', hlt⟩ := (checkOptimised_iff h vs).1 ho e he hop
      rw [hD] at hD'; cases hD'
      rw [expectDisc, require_iff] at hd
      obtain ⟨d, hd⟩ := Option.isSome_iff_exists.1 hd
      refine NP_of_ok (a := ()) ?_
      rw [require_iff, hd, decide_eq_true_eq]
      exact hlt (v.ident, d) (mem_of_lookup_eq_some _ _ _ hd)
    · refine NP_withDiscs fun D hD => NP_eachOk fun v hm' => NP_andAlso (NP_expectDisc hD hm') fun _ =>
        NP_eachOk fun r _ => ?_
      split
      · exact NP_withDiscs fun _ _ => NP_ok _
      · exact NP_ok _
    · simp only [eachOk_iff, methodIdent_iff]
      intro v hv
      obtain ⟨hv, ha⟩ := List.mem_filter.1 hv
      exact hp v hv ha
    · exact NP_eachOk fun r _ => NP_withDiscs fun _ _ => NP_ok _

end

theorem Declares.ascending {os : List ItemOption} {h : List Entry} (hd : Declares os h) :
    h.map Entry.revision = List.range' 1 h.length := by
  rcases hd.history with ⟨-, -, h1⟩ | ⟨n, -, -, -, rfl⟩
  · exact h1
  · rw [List.map_map, List.length_map, List.length_range']
    exact List.map_id _

theorem validHistory_of {s : ItemSrc} {args item : ItemOptions} {h : List Entry}
    (h1 : ItemOptions.finish s.args = .ok args) (h2 : ItemOptions.finish s.attrs.flatten = .ok item)
    (h4 : itemHistory item.history args.history = .ok h) : ValidHistory h := by
  obtain ⟨h5, h6, h7, h8⟩ := (C46_item_iff _ _ _).1 h4
  have hasc : h.map Entry.revision = List.range' 1 h.length := by
    rcases h5 with ⟨-, rfl⟩ | ⟨rfl, -⟩
    · exact ((finish_iff _ _).1 h1).1.ascending
    · exact ((finish_iff _ _).1 h2).1.ascending
  have hl : latest h = h.length := by
    unfold latest
    rw [← List.getLast?_map, hasc, List.getLast?_range']
    have := List.length_pos_iff.2 h6
    rw [if_neg (by omega)]
    simp
    try omega
  exact ⟨h6, hasc, by omega⟩

theorem NP_expand (s : ItemSrc) (hn : walkOn s.args = true → ∀ r, s.body.PlainNames r) : NP (expand s) := by
  unfold expand
  refine NP_bind (NP_itemFinish _) fun args h1 => NP_bind (NP_itemFinish _) fun item h2 =>
    NP_bind (NP_parseBody _) fun body h3 => NP_bind (NP_itemHistory _ _) fun h h4 =>
    NP_bind (NP_checkRevisions _ _) fun _ h5 => NP_bind (NP_checkOptimised _ _) fun _ h6 =>
    NP_bind (NP_serializeVisit _ _) fun _ h7 => ?_
  have hv := validHistory_of h1 h2 h4
  obtain ⟨hb, rfl⟩ := (parseBody_iff _ _).1 h3
  refine NP_bind (NP_eachOk fun e he => NP_deserializeVisit hv (readBody_ends _ hb) he) fun _ h8 => ?_
  have hs : NP (eachOk (fun e => skipVisit e (readBody s.body)) h) := NP_eachOk fun e _ => NP_skipVisit _ _
  obtain ⟨-, -, a2, -, a4⟩ := (finish_iff _ _).1 h1
  have hw : args.walk.getD args.deserialize = true → _ := fun hw => NP_walkVisit (h := h) h6
    ((plainNames_iff _ hb _ (by rw [hv.latest_eq]; exact hv.fits)).2
      (hn (by unfold walkOn; rw [← a2, ← a4]; exact hw) _)) args.serialize args.deserialize
  dsimp only
  by_cases c1 : args.skip.getD args.deserialize = true <;>
    by_cases c2 : args.walk.getD args.deserialize = true <;>
    simp only [c1, c2, if_true, if_false, Bool.false_eq_true]
  · exact NP_bind hs fun _ _ => NP_bind (hw c2) fun _ _ => NP_ok _
  · exact NP_bind hs fun _ _ => NP_ok _
  · exact NP_bind (hw c2) fun _ _ => NP_ok _
  · exact NP_ok _

end Revision
