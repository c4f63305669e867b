import Verif.Spec.DerivePanic
import Verif.Proofs.DeriveWalk
import Verif.Proofs.DeriveTy

/-! Panic-freedom of generated code: helper lemmas. -/

namespace Revision

variable {V : Type}

theorem Rd.NoPanic.within {m : Rd α} (h : m.NoPanic) (s : Bytes) : m.within s ≠ .panic := by
  unfold Rd.within
  have := h s
  cases hm : m s with
  | ok p => simp
  | err e => simp
  | panic => exact absurd hm this

theorem Rd.NoPanic.consume (n : Nat) : (Rd.consume n).NoPanic := by
  intro s; unfold Rd.consume; simp only; split <;> simp

theorem Rd.NoPanic.peek (n : Nat) : (Rd.peek n).NoPanic := by
  intro s; unfold Rd.peek; simp only; split <;> simp

theorem readVarlenLen_noPanic : readVarlenLen.NoPanic :=
  Rd.NoPanic.bind (Rd.NoPanic.readExact 4) fun _ => Rd.NoPanic.pure _

theorem readLengthPrefixed_noPanic : readLengthPrefixed.NoPanic :=
  Rd.NoPanic.bind readVarlenLen_noPanic fun n => Rd.NoPanic.readExact n

theorem readBorrowed_noPanic (n : Nat) : (readBorrowed n).NoPanic :=
  Rd.NoPanic.bind (Rd.NoPanic.peek n) fun _ => Rd.NoPanic.bind (Rd.NoPanic.advance n) fun _ => Rd.NoPanic.pure _

theorem FieldDecl.Safe.legacyC {f : FieldDecl V} (h : f.Safe) : f.legacyC.PanicFree := by
  unfold FieldDecl.legacyC
  split
  · exact h.fixedLe
  · split
    · exact h.bulk
    · exact h.plain

theorem FieldDecl.Safe.optimisedC {f : FieldDecl V} (h : f.Safe) : f.optimisedC.PanicFree := by
  unfold FieldDecl.optimisedC
  split
  · exact h.indexed ‹_›
  · exact h.plain

theorem FieldDecl.Safe.wire {f : FieldDecl V} (h : f.Safe) (e : Entry) : (f.wire e).PanicFree := by
  unfold FieldDecl.wire
  split
  · exact h.optimisedC
  · exact h.legacyC

theorem FieldDecl.Safe.removedDec {f : FieldDecl V} (h : f.Safe) (e : Entry) : (f.removedDec e).NoPanic := by
  unfold FieldDecl.removedDec
  split
  · exact h.plain.dec
  · exact h.legacyC.dec

theorem FieldDecl.Safe.legacySkip {f : FieldDecl V} (h : f.Safe) : f.legacySkip.NoPanic := by
  unfold FieldDecl.legacySkip
  split
  · exact h.fixedLe.skip
  · exact h.plain.skip

theorem FieldDecl.Safe.legacySkipS {f : FieldDecl V} (h : f.Safe) : f.legacySkipS.NoPanic := by
  unfold FieldDecl.legacySkipS
  split
  · exact h.fixedLe.skip
  · exact h.plainS

theorem FieldDecl.legacyC_decodable {f : FieldDecl V} {s r : Bytes} {v : V}
    (h : f.legacyC.dec s = .ok (v, r)) : f.Decodable v := by
  unfold FieldDecl.legacyC at h
  refine ⟨s, r, ?_⟩
  split at h
  · exact .inr (.inl h)
  · split at h
    · exact .inr (.inr h)
    · exact .inl h

theorem FieldDecl.removedDec_decodable {f : FieldDecl V} {e : Entry} {s r : Bytes} {v : V}
    (h : f.removedDec e s = .ok (v, r)) : f.Decodable v := by
  unfold FieldDecl.removedDec at h
  split at h
  · exact ⟨s, r, .inl h⟩
  · exact FieldDecl.legacyC_decodable h

theorem decodePairs_noPanic {live removed : FieldDecl V → Rd V} {cur tgt : Nat} :
    ∀ (fs : List (FieldDecl V)),
    (∀ f ∈ fs, (live f).NoPanic ∧ (removed f).NoPanic ∧ ∀ r, f.dflt r ≠ .panic) →
    (decodePairs live removed cur tgt fs).NoPanic
  | [], _ => Rd.NoPanic.pure _
  | f :: fs, h => by
    have ih := decodePairs_noPanic (live := live) (removed := removed) (cur := cur) (tgt := tgt) fs
      (fun g hg => h g (List.mem_cons_of_mem _ hg))
    have hf := h f List.mem_cons_self
    unfold decodePairs
    refine Rd.NoPanic.ite (Rd.NoPanic.bind (Rd.NoPanic.ite (Rd.NoPanic.ite hf.1 hf.2.1)
      (Rd.NoPanic.lift (hf.2.2 cur))) fun _ => Rd.NoPanic.bind ih fun _ => Rd.NoPanic.pure _) ih

theorem decodePairs_removed {live removed : FieldDecl V → Rd V} {cur tgt : Nat}
    (hr : ∀ f s r v, removed f s = .ok (v, r) → f.Decodable v) :
    ∀ (fs : List (FieldDecl V)) (s r : Bytes) (ps : List (FieldDecl V × V)),
    decodePairs live removed cur tgt fs s = .ok (ps, r) →
    ∀ p ∈ ps, p.1.existsAt tgt = false → p.1 ∈ fs ∧ p.1.Decodable p.2
  | [], s, r, ps, h => by cases h; intro p hp; cases hp
  | f :: fs, s, r, ps, h => by
    unfold decodePairs at h
    by_cases hc : (f.existsAt cur || f.existsAt tgt) = true
    · rw [if_pos hc] at h
      obtain ⟨v, s1, h1, h⟩ := Rd.bind_ok.1 h
      obtain ⟨ps', s2, h2, h⟩ := Rd.bind_ok.1 h
      cases h
      intro p hp ht
      rcases List.mem_cons.1 hp with rfl | hp
      · simp only at ht
        have hcur : f.existsAt cur = true := by simpa [ht] using hc
        rw [hcur, ht] at h1
        exact ⟨List.mem_cons_self, hr _ _ _ _ h1⟩
      · have := decodePairs_removed hr fs _ _ _ h2 p hp ht
        exact ⟨List.mem_cons_of_mem _ this.1, this.2⟩
    · rw [if_neg hc] at h
      intro p hp ht
      have := decodePairs_removed hr fs _ _ _ h p hp ht
      exact ⟨List.mem_cons_of_mem _ this.1, this.2⟩

theorem applyConverts_noPanic {cur : Nat} : ∀ (ps : List (FieldDecl V × V)) (this : List V),
    (∀ p ∈ ps, ∀ this, p.1.convert cur p.2 this ≠ .panic) → applyConverts cur ps this ≠ .panic
  | [], this, _ => by simp [applyConverts]
  | (f, v) :: ps, this, h => by
    unfold applyConverts
    have h1 := h (f, v) List.mem_cons_self this
    have ih := fun this => applyConverts_noPanic ps this (fun p hp => h p (List.mem_cons_of_mem _ hp))
    simp only at h1
    cases hc : f.convert cur v this with
    | ok t => rw [Res.ok_bind]; exact ih t
    | err e => simp [bind, Res.bind]
    | panic => exact absurd hc h1

theorem decodeStructBody_noPanic {live removed : FieldDecl V → Rd V} {cur tgt : Nat} (fs : List (FieldDecl V))
    (hn : DistinctNames fs cur tgt)
    (hl : ∀ f ∈ fs, (live f).NoPanic ∧ (removed f).NoPanic ∧ ∀ r, f.dflt r ≠ .panic)
    (hr : ∀ f s r v, removed f s = .ok (v, r) → f.Decodable v)
    (hc : ∀ f ∈ fs, ∀ r v this, f.Decodable v → f.convert r v this ≠ .panic) :
    (decodeStructBody live removed cur tgt fs).NoPanic := by
  rw [decodeStructBody_pairs live removed cur tgt fs hn]
  refine Rd.NoPanic.bind' (P := fun ps => ∀ p ∈ ps, p.1.existsAt tgt = false → p.1 ∈ fs ∧ p.1.Decodable p.2)
    (decodePairs_noPanic fs hl) (fun s a r h => decodePairs_removed hr fs _ _ _ h) fun ps hps => ?_
  refine Rd.NoPanic.lift (applyConverts_noPanic _ _ ?_)
  intro p hp this
  obtain ⟨hp, ht⟩ := List.mem_filter.1 hp
  have := hps p hp (by simpa using ht)
  exact hc p.1 this.1 _ _ _ this.2

theorem deserializeStructBody_noPanic (e : Entry) (tgt : Nat) (fs : List (FieldDecl V))
    (hn : DistinctNames fs e.revision tgt) (hs : ∀ f ∈ fs, f.Safe) :
    (deserializeStructBody e tgt fs).NoPanic := by
  have hbody := decodeStructBody_noPanic (live := fun f => (f.wire e).dec) (removed := fun f => f.removedDec e)
    fs hn (fun f hf => ⟨((hs f hf).wire e).dec, (hs f hf).removedDec e, (hs f hf).dflt⟩)
    (fun f s r v h => FieldDecl.removedDec_decodable h) (fun f hf => (hs f hf).convert)
  unfold deserializeStructBody
  refine Rd.NoPanic.ite (Rd.NoPanic.bind readLengthPrefixed_noPanic fun p => ?_) hbody
  refine Rd.NoPanic.ite (Rd.NoPanic.ite (Rd.NoPanic.fail _) (Rd.NoPanic.lift (hbody.within _)))
    (Rd.NoPanic.lift (hbody.within _))

theorem skipFields_noPanic {skip : FieldDecl V → Rd Unit} {cur tgt : Nat} : ∀ (fs : List (FieldDecl V)),
    (∀ f ∈ fs, (skip f).NoPanic) → (skipFields skip cur tgt fs).NoPanic
  | [], _ => Rd.NoPanic.pure _
  | f :: fs, h => by
    have ih := skipFields_noPanic (skip := skip) (cur := cur) (tgt := tgt) fs
      (fun g hg => h g (List.mem_cons_of_mem _ hg))
    have hf := h f List.mem_cons_self
    unfold skipFields
    exact Rd.NoPanic.ite (Rd.NoPanic.bind hf fun _ => ih)
      (Rd.NoPanic.ite ih (Rd.NoPanic.ite (Rd.NoPanic.bind hf fun _ => ih) ih))

theorem dispatch_noPanic (cfg : Cfg) (h : List Entry) {arm : Entry → Rd α} (ha : ∀ e ∈ h, (arm e).NoPanic) :
    (dispatchRevision cfg h arm).NoPanic := by
  unfold dispatchRevision
  refine Rd.NoPanic.bind (readU16_noPanic cfg) fun r => ?_
  cases hf : h.find? (fun e => e.revision == r) with
  | none => exact Rd.NoPanic.fail _
  | some e => exact ha e (List.mem_of_find?_eq_some hf)

theorem afterHeader_noPanic (h : List Entry) {arm : Entry → Rd α} (ha : ∀ e ∈ h, (arm e).NoPanic) (r : Nat) :
    (afterHeader h arm r).NoPanic := by
  unfold afterHeader
  cases hf : h.find? (fun e => e.revision == r) with
  | none => exact Rd.NoPanic.fail _
  | some e => exact ha e (List.mem_of_find?_eq_some hf)

/-! ### Enums -/

theorem readOptimisedTag_noPanic : readOptimisedTag.NoPanic := by
  refine Rd.NoPanic.bind Rd.NoPanic.readByte fun tag => Rd.NoPanic.bind (Rd.NoPanic.lift ?_) fun _ => Rd.NoPanic.pure _
  unfold Tag.sizeClass
  split <;> simp

theorem decodeLegacyVariant_noPanic (e : Entry) (tgt : Nat) (v : VariantDecl V)
    (hn : DistinctNames v.fields e.revision tgt) (hs : v.Safe tgt) : (decodeLegacyVariant e tgt v).NoPanic := by
  unfold decodeLegacyVariant
  refine Rd.NoPanic.bind' (P := v.Decodable) ?_ (fun s a r h => ⟨s, r, .inl ⟨_, _, h⟩⟩) fun fields hd => ?_
  · exact decodeStructBody_noPanic v.fields hn
      (fun f hf => ⟨(hs.fields f hf).legacyC.dec, (hs.fields f hf).legacyC.dec, (hs.fields f hf).dflt⟩)
      (fun f s r v h => FieldDecl.legacyC_decodable h) (fun f hf => (hs.fields f hf).convert)
  · split
    · exact Rd.NoPanic.pure _
    · rename_i h
      exact Rd.NoPanic.lift (hs.convert (by simpa using h) _ _ hd)

theorem decodeAlive_noPanic {r : Nat} : ∀ (fs : List (FieldDecl V)), (∀ f ∈ fs, f.Safe) → (decodeAlive r fs).NoPanic
  | [], _ => Rd.NoPanic.pure _
  | f :: fs, h => by
    have ih := decodeAlive_noPanic (r := r) fs (fun g hg => h g (List.mem_cons_of_mem _ hg))
    unfold decodeAlive
    exact Rd.NoPanic.ite (Rd.NoPanic.bind (h f List.mem_cons_self).plain.dec fun _ =>
      Rd.NoPanic.bind ih fun _ => Rd.NoPanic.pure _) ih

theorem readSized_noPanic (size : VariantSize) : (readSized size).NoPanic := by
  cases size with
  | inline => exact Rd.NoPanic.pure _
  | fixed n => exact Rd.NoPanic.readExact _
  | varlen => exact readLengthPrefixed_noPanic

theorem Rd.within_ok {m : Rd α} {s : Bytes} {a : α} (h : m.within s = .ok a) : ∃ r, m s = .ok (a, r) := by
  unfold Rd.within at h
  cases hm : m s with
  | ok p => rw [hm] at h; cases h; exact ⟨p.2, rfl⟩
  | err e => rw [hm] at h; cases h
  | panic => rw [hm] at h; cases h

theorem decodeOptimisedVariant_noPanic (e : Entry) (tgt : Nat) (v : VariantDecl V) (hs : v.Safe tgt) :
    (decodeOptimisedVariant e tgt v).NoPanic := by
  unfold decodeOptimisedVariant
  refine Rd.NoPanic.bind (readSized_noPanic _) fun body => Rd.NoPanic.bind' (P := v.Decodable)
    (Rd.NoPanic.lift ((decodeAlive_noPanic v.fields hs.fields).within body)) (fun s a r h => ?_) fun fields hd => ?_
  · obtain ⟨r', hr⟩ := Rd.within_ok (lift_run_ok.1 h).1
    exact ⟨body, r', .inr ⟨_, hr⟩⟩
  · split
    · exact Rd.NoPanic.pure _
    · rename_i h
      exact Rd.NoPanic.lift (hs.convert (by simpa using h) _ _ hd)

theorem variantArms_mem {vs : List (VariantDecl V)} {r : Nat} {a : Nat × VariantDecl V}
    (h : a ∈ variantArms vs r) : a.2 ∈ vs := by
  obtain ⟨d, v⟩ := a
  exact (mem_variantArms.1 h).1

theorem deserializeEnumBody_noPanic (cfg : Cfg) (e : Entry) (tgt : Nat) (vs : List (VariantDecl V))
    (hn : ∀ v ∈ vs, DistinctNames v.fields e.revision tgt) (hs : ∀ v ∈ vs, v.Safe tgt) :
    (deserializeEnumBody cfg e tgt vs).NoPanic := by
  unfold deserializeEnumBody
  refine Rd.NoPanic.ite (Rd.NoPanic.bind readOptimisedTag_noPanic fun p => ?_)
    (Rd.NoPanic.bind (readU32_noPanic cfg) fun d => ?_)
  · split
    split
    · rename_i a ha
      exact decodeOptimisedVariant_noPanic e tgt a.2 (hs _ (variantArms_mem (List.mem_of_find?_eq_some ha)))
    · exact Rd.NoPanic.fail _
  · split
    · rename_i a ha
      have hm := variantArms_mem (List.mem_of_find?_eq_some ha)
      exact decodeLegacyVariant_noPanic e tgt a.2 (hn _ hm) (hs _ hm)
    · exact Rd.NoPanic.fail _

theorem skipEnumBody_noPanic (cfg : Cfg) {adv : Nat → Rd Unit} (hadv : ∀ n, (adv n).NoPanic)
    {skip : FieldDecl V → Rd Unit} (e : Entry) (tgt : Nat) (vs : List (VariantDecl V))
    (hs : ∀ v ∈ vs, ∀ f ∈ v.fields, (skip f).NoPanic) : (skipEnumBody cfg adv skip e tgt vs).NoPanic := by
  unfold skipEnumBody
  refine Rd.NoPanic.ite (Rd.NoPanic.bind readOptimisedTag_noPanic fun p => ?_)
    (Rd.NoPanic.bind (readU32_noPanic cfg) fun d => ?_)
  · split
    split
    · exact Rd.NoPanic.pure _
    · exact hadv _
    · exact Rd.NoPanic.bind readVarlenLen_noPanic fun n => hadv n
  · split
    · rename_i a ha
      exact skipFields_noPanic _ (hs _ (variantArms_mem (List.mem_of_find?_eq_some ha)))
    · exact Rd.NoPanic.fail _

/-! ### Walkers -/

/-- A representation whose methods cannot slice out of range. -/
def StructRepr.Good : StructRepr → Prop
  | .wire _ => True
  | .indexed .. => False
  | .converted bytes cursor => cursor ≤ bytes.length

theorem atCursor_noPanic {m : Rd α} (h : m.NoPanic) {bytes : Bytes} {cursor : Nat} (hc : cursor ≤ bytes.length) :
    StructRepr.atCursor m bytes cursor ≠ .panic := by
  unfold StructRepr.atCursor
  rw [sliceR_ok hc (Nat.le_refl _), Res.ok_bind]
  have := h (slice bytes cursor bytes.length)
  cases hm : m (slice bytes cursor bytes.length) with
  | ok p => simp
  | err e => simp
  | panic => exact absurd hm this

theorem atCursor_good {m : Rd α} {bytes : Bytes} {cursor c' : Nat} {a : α}
    (h : StructRepr.atCursor m bytes cursor = .ok (a, c')) : c' ≤ bytes.length := by
  unfold StructRepr.atCursor at h
  obtain ⟨s, _, h⟩ := Res.bind_eq_ok.1 h
  cases hm : m s with
  | ok p => rw [hm] at h; cases h; omega
  | err e => rw [hm] at h; cases h
  | panic => rw [hm] at h; cases h

theorem decodeField_noPanic {idx : Nat} {f : FieldDecl V} (hf : f.Safe) {w : StructRepr} (hw : w.Good) :
    (w.decodeField idx f).NoPanic := by
  cases w with
  | wire r =>
    exact Rd.NoPanic.bind (Rd.NoPanic.ite hf.optimisedC.dec (Rd.NoPanic.lift (hf.dflt r))) fun _ => Rd.NoPanic.pure _
  | indexed b n => exact hw.elim
  | converted b c => exact Rd.NoPanic.bind (Rd.NoPanic.lift (atCursor_noPanic hf.plain.dec hw)) fun _ => Rd.NoPanic.pure _

theorem decodeField_good {idx : Nat} {f : FieldDecl V} {w w' : StructRepr} (hw : w.Good) {s r : Bytes} {v : V}
    (h : w.decodeField idx f s = .ok ((v, w'), r)) : w'.Good := by
  cases w with
  | wire x =>
    obtain ⟨a, s1, _, h⟩ := Rd.bind_ok.1 h
    cases h; trivial
  | indexed b n => exact hw.elim
  | converted b c =>
    obtain ⟨⟨a, c'⟩, s1, h1, h⟩ := Rd.bind_ok.1 h
    cases h
    exact atCursor_good (lift_run_ok.1 h1).1

theorem skipField_noPanic {f : FieldDecl V} (hf : f.Safe) {w : StructRepr} (hw : w.Good) :
    (w.skipField f).NoPanic := by
  cases w with
  | wire r =>
    exact Rd.NoPanic.bind (Rd.NoPanic.ite hf.optimisedC.skip (Rd.NoPanic.pure _)) fun _ => Rd.NoPanic.pure _
  | indexed b n => exact hw.elim
  | converted b c => exact Rd.NoPanic.bind (Rd.NoPanic.lift (atCursor_noPanic hf.plain.skip hw)) fun _ => Rd.NoPanic.pure _

theorem skipField_good {f : FieldDecl V} {w w' : StructRepr} (hw : w.Good) {s r : Bytes}
    (h : w.skipField f s = .ok (w', r)) : w'.Good := by
  cases w with
  | wire x =>
    obtain ⟨a, s1, _, h⟩ := Rd.bind_ok.1 h
    cases h; trivial
  | indexed b n => exact hw.elim
  | converted b c =>
    obtain ⟨⟨a, c'⟩, s1, h1, h⟩ := Rd.bind_ok.1 h
    cases h
    exact atCursor_good (lift_run_ok.1 h1).1

theorem runCalls_noPanic {fs : List (FieldDecl V)} (hs : ∀ f ∈ fs, f.Safe) : ∀ (calls : List FieldCall)
    (w : StructRepr), w.Good → (runCalls fs calls w).NoPanic
  | [], w, _ => Rd.NoPanic.pure _
  | .decode i :: cs, w, hw => by
    unfold runCalls
    cases hi : fs[i]? with
    | none => exact Rd.NoPanic.fail _
    | some f =>
      refine Rd.NoPanic.bind' (P := fun p => p.2.Good) (decodeField_noPanic (hs f (List.mem_of_getElem? hi)) hw)
        (fun s a r h => decodeField_good hw h) fun p hp => ?_
      exact Rd.NoPanic.bind (runCalls_noPanic hs cs p.2 hp) fun _ => Rd.NoPanic.pure _
  | .skip i :: cs, w, hw => by
    unfold runCalls
    cases hi : fs[i]? with
    | none => exact Rd.NoPanic.fail _
    | some f =>
      refine Rd.NoPanic.bind' (P := fun p => p.Good) (skipField_noPanic (hs f (List.mem_of_getElem? hi)) hw)
        (fun s a r h => skipField_good hw h) fun p hp => ?_
      exact Rd.NoPanic.bind (runCalls_noPanic hs cs p hp) fun _ => Rd.NoPanic.pure _

theorem consumed_noPanic {m : Rd Unit} (h : m.NoPanic) : (StructRepr.consumed m).NoPanic := by
  intro s
  unfold StructRepr.consumed
  have := h s
  simp only
  cases hm : m s with
  | ok p => simp
  | err e => simp
  | panic => exact absurd hm this

theorem checkedFieldSlice_noPanic (bytes : Bytes) (fc idx : Nat) :
    StructRepr.checkedFieldSlice bytes fc idx ≠ .panic := by
  unfold StructRepr.checkedFieldSlice
  by_cases hi : idx + 1 < fc
  · simp only [hi, if_true]
    by_cases hl : idx * 4 + 8 > bytes.length
    · rw [if_pos hl]; simp
    · rw [if_neg hl, decodeU32At_ok (by omega), Res.ok_bind, decodeU32At_ok (by omega), Res.ok_bind]
      split
      · simp
      · rw [sliceR_ok (by omega) (by omega)]; simp
  · simp only [hi, if_false]
    by_cases hl : idx * 4 + 4 > bytes.length
    · rw [if_pos hl]; simp
    · rw [if_neg hl, decodeU32At_ok (by omega), Res.ok_bind, Res.ok_bind]
      split
      · simp
      · rw [sliceR_ok (by omega) (by omega)]; simp

/-! ### Indexed collections -/

theorem readVarint_noPanic : readVarint.NoPanic :=
  Rd.NoPanic.bind Rd.NoPanic.readByte fun _ => Rd.NoPanic.ite (Rd.NoPanic.pure _)
    (Rd.NoPanic.ite (Rd.NoPanic.bind (Rd.NoPanic.readExact _) fun _ => Rd.NoPanic.pure _)
    (Rd.NoPanic.ite (Rd.NoPanic.bind (Rd.NoPanic.readExact _) fun _ => Rd.NoPanic.pure _)
    (Rd.NoPanic.ite (Rd.NoPanic.bind (Rd.NoPanic.readExact _) fun _ => Rd.NoPanic.pure _)
      (Rd.NoPanic.fail _))))

theorem checkedMul_ne_panic (a b : Nat) (e : Err) : checkedMul a b e ≠ .panic := by
  unfold checkedMul; split <;> simp

theorem readIndexedSeq_noPanic {cap : Nat → Bool} (hcap : ∀ n, cap n = true) {c : Rd α} (hc : c.NoPanic) :
    (readIndexedSeq cap c).NoPanic :=
  Rd.NoPanic.bind Rd.NoPanic.readByte fun _ => Rd.NoPanic.bind readVarint_noPanic fun n =>
    Rd.NoPanic.ite (Rd.NoPanic.bind (Rd.NoPanic.alloc (hcap n)) fun _ => Rd.NoPanic.readN hc n)
      (Rd.NoPanic.bind (Rd.NoPanic.lift (checkedMul_ne_panic _ _ _)) fun _ =>
        Rd.NoPanic.bind (Rd.NoPanic.advance _) fun _ =>
          Rd.NoPanic.bind (Rd.NoPanic.alloc (hcap n)) fun _ => Rd.NoPanic.readN hc n)

theorem skipIndexedMap_noPanic {k v : Rd Unit} (hk : k.NoPanic) (hv : v.NoPanic) :
    (skipIndexedMap k v).NoPanic :=
  Rd.NoPanic.bind Rd.NoPanic.readByte fun _ => Rd.NoPanic.bind readVarint_noPanic fun n =>
    Rd.NoPanic.ite (Rd.NoPanic.repeatN (Rd.NoPanic.bind hk fun _ => hv) n)
      (Rd.NoPanic.bind (Rd.NoPanic.lift (checkedMul_ne_panic _ _ _)) fun _ =>
        Rd.NoPanic.bind (Rd.NoPanic.advance _) fun _ =>
          Rd.NoPanic.bind (Rd.NoPanic.readExact _) fun _ => Rd.NoPanic.advance _)

theorem skipIndexedSeq_noPanic {c : Rd Unit} (hc : c.NoPanic) : (skipIndexedSeq c).NoPanic := by
  refine Rd.NoPanic.bind Rd.NoPanic.readByte fun _ => Rd.NoPanic.bind readVarint_noPanic fun n =>
    Rd.NoPanic.ite (Rd.NoPanic.repeatN hc n) ?_
  split
  · exact Rd.NoPanic.pure _
  · rename_i hn
    refine Rd.NoPanic.bind' (P := fun t => t = n * 4) (Rd.NoPanic.lift (checkedMul_ne_panic _ _ _)) ?_ ?_
    · intro s a r h
      have := (lift_run_ok.1 h).1
      unfold checkedMul at this
      split at this
      · cases this; rfl
      · cases this
    · rintro _ rfl
      refine Rd.NoPanic.bind' (P := fun t : Bytes => t.length = n * 4) (Rd.NoPanic.peek _) ?_ ?_
      · intro s a r h
        unfold Rd.peek at h
        simp only at h
        split at h
        · cases h
          rw [List.length_take]; omega
        · cases h
      · intro t ht
        refine Rd.NoPanic.bind (Rd.NoPanic.lift ?_) fun _ => Rd.NoPanic.bind (Rd.NoPanic.advance _) fun _ =>
          Rd.NoPanic.bind (Rd.NoPanic.advance _) fun _ => hc
        rw [decodeU32At_ok (by omega)]
        simp

theorem indexedSeqC_panicFree {cap : Nat → Bool} (hcap : ∀ n, cap n = true) {c : Codec α} (hc : c.PanicFree) :
    (indexedSeqC cap c).PanicFree :=
  ⟨readIndexedSeq_noPanic hcap hc.dec, skipIndexedSeq_noPanic hc.skip, (readIndexedSeq_noPanic hcap hc.dec).discard⟩

theorem indexedBTreeSetC_panicFree {cap : Nat → Bool} (hcap : ∀ n, cap n = true) (cmp : α → α → Ordering)
    {c : Codec α} (hc : c.PanicFree) : (indexedBTreeSetC cap cmp c).PanicFree :=
  ⟨(readIndexedSeq_noPanic hcap hc.dec).bind fun _ => Rd.NoPanic.pure _, skipIndexedSeq_noPanic hc.skip,
    (readIndexedSeq_noPanic hcap hc.dec).discard⟩

theorem indexedHashSetC_panicFree {cap : Nat → Bool} (hcap : ∀ n, cap n = true) (eq : α → α → Bool)
    {c : Codec α} (hc : c.PanicFree) : (indexedHashSetC cap eq c).PanicFree :=
  ⟨(readIndexedSeq_noPanic hcap hc.dec).bind fun _ => Rd.NoPanic.pure _, skipIndexedSeq_noPanic hc.skip,
    (readIndexedSeq_noPanic hcap hc.dec).discard⟩

end Revision
