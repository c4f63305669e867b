import Verif.Spec.Source
import Verif.Props.Macro
import Verif.Props.Program

/-! # C99: whatever the macro accepts works -/

namespace Revision

variable {ι : Type} [DecidableEq ι]

private theorem sig_of_outline {K : ι → Kind} (vs : List (Variant K)) (ws : List VariantAst)
    (h : vs.map (fun v => (v.ident, v.opts, v.fields.map fun f => (f.name, f.opts))) =
      ws.map fun v => (v.ident, v.opts, v.fields.map fun f => (f.name, f.opts))) :
    vs.map Variant.sig = ws.map VariantAst.sig := by
  have := congrArg (List.map fun p : String × VariantOptions × List (String × FieldOptions) =>
    (⟨p.1, p.2.1, p.2.2.map (·.2)⟩ : VariantSig)) h
  simp only [List.map_map, Function.comp_def] at this
  exact this

omit [DecidableEq ι] in
private theorem overrides_of_outline {K : ι → Kind} (vs : List (Variant K)) (ws : List VariantAst)
    (h : vs.map (fun v => (v.ident, v.opts, v.fields.map fun f => (f.name, f.opts))) =
      ws.map fun v => (v.ident, v.opts, v.fields.map fun f => (f.name, f.opts))) (w : VariantAst) (hw : w ∈ ws) :
    ∃ v ∈ vs, v.opts = w.opts := by
  have hm := List.mem_map_of_mem (f := fun v : VariantAst => (v.ident, v.opts, v.fields.map fun f => (f.name, f.opts))) hw
  rw [← h] at hm
  obtain ⟨v, hv, he⟩ := List.mem_map.1 hm
  exact ⟨v, hv, (Prod.mk.inj (Prod.mk.inj he).2).1⟩

/-- The program reads what it wrote at the revisions `r` of its types whenever all of them are accepted by the
macro, the names are different, and none of the known gaps of the macro applies. -/
theorem C99_readable (cfg : Cfg) (P : Program ι) (src : ι → ItemSrc) (hw : P.WrittenAs src)
    (hf : ∀ i, (P.body i).Fits) (r : ι → Nat) (h1 : ∀ i, 1 ≤ r i) (h2 : ∀ i, r i ≤ P.current i)
    (hd : ∀ i, (P.body i).Distinct (r i) (P.current i)) (hb : cfg.specialised = true ∨ ∀ i, (P.body i).NoBulk)
    (hs : ∀ i, (P.body i).Stable (P.entryAt r i) (P.current i)) : P.Readable cfg r := by
  have hist : ∀ i, ValidHistory (P.history i) := by
    intro i
    rcases hw i with ⟨x, hx, he, -⟩ | ⟨-, h⟩
    · rw [he]
      exact (C97_sound _ x hx).1
    · exact h
  refine ⟨hist, h1, h2, ?_⟩
  intro i
  have hrev : (P.entryAt r i).revision = r i := by
    have := ((hist i).take (h1 i) (h2 i)).lastEntry_revision
    rw [List.length_take, Nat.min_eq_left (show r i ≤ (P.history i).length from h2 i)] at this
    exact this
  have hmem : P.entryAt r i ∈ P.history i :=
    List.mem_of_mem_take ((hist i).take (h1 i) (h2 i)).lastEntry_mem
  have hcur : P.current i = (P.history i).length := rfl
  have hb := hb.imp_right fun h => h i
  have hf := hf i
  have hd := hd i
  have hs := hs i
  have hw := hw i
  rw [← hrev] at hd
  rw [hcur] at hd hs
  generalize P.body i = b at hf hd hb hs hw
  revert hf hd hb hs hw
  generalize P.kind i = k at b
  intro hf hd hb hs hw
  cases b with
  | foreign _ => trivial
  | struct fs =>
    exact ⟨hd, hs, fun _ f hf => hb.imp_right fun h => h f hf⟩
  | enum vs =>
    obtain ⟨x, hx, he, ho⟩ : ∃ x, expand (src i) = .ok x ∧ P.history i = x.history ∧
        (Body.enum vs : Body P.kind _).outline = x.body.outline := by
      rcases hw with h | ⟨h, -⟩
      · exact h
      · cases h
    cases hxb : x.body with
    | struct gs => rw [hxb] at ho; cases ho
    | enum ws =>
      rw [hxb] at ho
      have ho' : vs.map (fun v => (v.ident, v.opts, v.fields.map fun f => (f.name, f.opts))) =
        ws.map fun v => (v.ident, v.opts, v.fields.map fun f => (f.name, f.opts)) := by
        simp only [Body.outline, BodyAst.outline, Outline.enum.injEq] at ho
        exact ho
      have hsig := sig_of_outline vs ws ho'
      have hlen : ws.length = vs.length := by
        have := congrArg List.length ho'
        simpa using this.symm
      refine ⟨?_, hs, fun _ v hv ha => hd.2 v hv ha, fun _ v hv f hf => hb.imp_right fun h => h v hv f hf⟩
      rw [hsig]
      refine (C97_sound _ x hx).2 ws hxb _ (he ▸ hmem) ?_ (hlen ▸ hf.1) ?_
      · rw [← hsig]
        unfold DistinctVariants
        rw [List.filter_map, List.map_map]
        exact hd.1
      · intro w hw' p hp d hpd
        obtain ⟨v, hv, hvw⟩ := overrides_of_outline vs ws ho' w hw'
        exact hf.2 v hv p (hvw ▸ hp) d hpd

/-- Values of any types the macro accepts, however they use one another and however deep they nest, are read back,
skipped and checked, whatever follows them.  Missing: with `specialised-vectors` off, types with a `specialised`
field (`C55_specialised_false`); and what `valid` excludes (`C53_fixed_size_false`). -/
theorem C99_round_trip_partial (cfg : Cfg) (P : Program ι) (src : ι → ItemSrc) (hw : P.WrittenAs src)
    (hf : ∀ i, (P.body i).Fits) (hd : ∀ i, (P.body i).Distinct (P.current i) (P.current i))
    (hb : cfg.specialised = true ∨ ∀ i, (P.body i).NoBulk) (I : Impls P.kind)
    (htrans : ∀ n t, Std.TransCmp (I.cmp n t)) (n : Nat) (i : ι) (v : Values P.kind n i) (b : Bytes)
    (hv : (P.codec cfg I n i).valid v) (he : (P.codec cfg I n i).enc v = .ok b) (t : Bytes) :
    (P.codec cfg I n i).dec (b ++ t) = .ok (v, t) ∧
      (P.codec cfg I n i).skip (b ++ t) = .ok ((), t) ∧
      (P.codec cfg I n i).skipS (b ++ t) = .ok ((), t) ∧
      (P.codec cfg I n i).check (b ++ t) = .ok ((), t) := by
  have hist : ∀ i, ValidHistory (P.history i) := by
    intro i
    rcases hw i with ⟨x, hx, he, -⟩ | ⟨-, h⟩
    · rw [he]
      exact (C97_sound _ x hx).1
    · exact h
  refine C73_round_trip_partial cfg P I htrans ?_ n i v b hv he t
  refine C99_readable cfg P src hw hf P.current ?_ (fun _ => Nat.le_refl _) hd hb ?_
  · intro i
    exact List.length_pos_iff.2 (hist i).nonempty
  · intro i
    have hrev : (P.entryAt P.current i).revision = P.current i := by
      unfold Program.entryAt Program.current
      rw [List.take_length]
      exact (hist i).lastEntry_revision
    generalize P.body i = b
    revert b
    generalize P.kind i = k
    intro b
    cases b with
    | foreign _ => trivial
    | struct fs =>
      intro _ f _ h1 h2
      rw [hrev] at h1
      rw [h1] at h2; cases h2
    | enum vs =>
      intro _ v _ _ f _
      rw [hrev]

/-- The data that accepted types wrote at any of their revisions is read and migrated by the program as it is.
Missing: the gaps of the macro that `Stable`, `NoBulk` and `Distinct` name. -/
theorem C99_migration_partial (cfg : Cfg) (P : Program ι) (src : ι → ItemSrc) (hw : P.WrittenAs src)
    (hf : ∀ i, (P.body i).Fits) (r : ι → Nat) (h1 : ∀ i, 1 ≤ r i) (h2 : ∀ i, r i ≤ P.current i)
    (hd : ∀ i, (P.body i).Distinct (r i) (P.current i)) (hb : cfg.specialised = true ∨ ∀ i, (P.body i).NoBulk)
    (hs : ∀ i, (P.body i).Stable (P.entryAt r i) (P.current i)) (I I' : Impls P.kind)
    (hcap : ∀ t k, I.cap t k = true → I'.cap t k = true) (n m : Nat) (hnm : n ≤ m) (i : ι)
    (v : Values P.kind n i) (b : Bytes) (hv : ((P.asOf r).codec cfg I n i).valid v)
    (he : ((P.asOf r).codec cfg I n i).enc v = .ok b) (t : Bytes) :
    ((P.codec cfg I' m i).dec (b ++ t)).ok? = (P.migrate cfg I I' r n m i v).map (·, t) ∧
      (P.codec cfg I' m i).skip (b ++ t) = .ok ((), t) :=
  have h := C74_nested_migration_partial cfg P I I' r (C99_readable cfg P src hw hf r h1 h2 hd hb hs) hcap n m hnm i
    v b hv he t
  ⟨h.1, h.2.1⟩

/-- The demonstration program in source. -/
def demoSource : DemoType → ItemSrc
  | .tree => ⟨[.entry 1 [], .entry 2 []], [], .enum [
      ⟨"Leaf", [], [⟨"value", "u32", []⟩, ⟨"label", "String", [[.start 2]]⟩]⟩,
      ⟨"Node", [], [⟨"field_0", "Vec < Tree >", []⟩]⟩]⟩
  | .doc => ⟨[.entry 1 [.optimised]], [], .struct [⟨"title", "String", []⟩,
      ⟨"parts", "Vec < Tree >", [[.indexedSeq]]⟩, ⟨"next", "Option < Box < Doc > >", []⟩]⟩

theorem demoSource_written : demoProgram.WrittenAs demoSource := by
  intro i
  cases i <;> exact .inl ⟨_, rfl, rfl, rfl⟩

theorem demoSource_fits : ∀ i, (demoProgram.body i).Fits := by
  intro i
  cases i
  · refine ⟨by decide, forall_mem_pair ?_ ?_⟩ <;> exact nofun
  · trivial

theorem demoSource_distinct (r : DemoType → Nat) (hr : ∀ i, r i = 1 ∨ r i = demoProgram.current i) :
    ∀ i, (demoProgram.body i).Distinct (r i) (demoProgram.current i) := by
  intro i
  have h := hr i
  generalize r i = c at h
  cases i
  · rcases h with rfl | rfl
    all_goals
      refine ⟨by decide, forall_mem_pair (fun _ => ?_) (fun _ => ?_)⟩ <;> (unfold DistinctFieldNames; decide)
  · rcases h with rfl | rfl
    all_goals
      change DistinctFieldNames _ _ _
      unfold DistinctFieldNames; decide

theorem demoSource_stable : ∀ i, (demoProgram.body i).Stable (demoProgram.entryAt demoOld i) (demoProgram.current i) := by
  intro i
  cases i
  · intro h; cases h
  · intro _ f _ h1 h2
    have hf : f.existsAt 1 = true := h1
    have hg : f.existsAt 1 = false := h2
    rw [hf] at hg
    cases hg

/-- A tree of the accepted source, two levels of nesting. -/
example (t : Bytes) : (demoProgram.codec .default demoImpls 3 .tree).dec ([2, 1, 2, 2, 0, 5, 0, 2, 1, 0] ++ t) =
    .ok (demoTreeNew, t) :=
  (C99_round_trip_partial .default demoProgram demoSource demoSource_written demoSource_fits
    (demoSource_distinct _ fun _ => .inr rfl) (.inl rfl) demoImpls demoImpls_trans 3 .tree demoTreeNew _
    demoTreeNew_valid rfl t).1

/-- And what its first revision wrote. -/
example (t : Bytes) : ((demoProgram.codec .default demoImpls 3 .tree).dec ([1, 1, 2, 1, 0, 5, 1, 1, 0] ++ t)).ok? =
    some (demoTreeNew, t) :=
  (C99_migration_partial .default demoProgram demoSource demoSource_written demoSource_fits demoOld
    (by intro i; cases i <;> decide) (by intro i; cases i <;> decide)
    (demoSource_distinct _ fun i => by cases i <;> decide) (.inl rfl) demoSource_stable demoImpls demoImpls
    (fun _ _ h => h) 3 3 (Nat.le_refl 3) .tree demoTree _ demoTree_valid rfl t).1

example := C99_readable .default demoProgram demoSource demoSource_written demoSource_fits demoOld
  (by intro i; cases i <;> decide) (by intro i; cases i <;> decide)
  (demoSource_distinct _ fun i => by cases i <;> decide) (.inl rfl) demoSource_stable

end Revision
