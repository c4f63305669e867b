import Verif.Proofs.Value
import Verif.Proofs.DerivePanic

/-! Helper lemmas: generated code returns values of the declared types. -/

namespace Revision

theorem Pointwise.filter {R : α → β → Prop} {p : α → Bool} {q : β → Bool} (hpq : ∀ a b, R a b → p a = q b) :
    ∀ {as : List α} {bs : List β}, Pointwise R as bs → Pointwise R (as.filter p) (bs.filter q)
  | _, _, .nil => .nil
  | a :: as, b :: bs, .cons h t => by
    have ih := t.filter hpq
    have := hpq a b h
    cases hp : p a with
    | true => rw [List.filter_cons_of_pos hp, List.filter_cons_of_pos (this ▸ hp)]; exact .cons h ih
    | false =>
      rw [List.filter_cons_of_neg (by simp [hp]), List.filter_cons_of_neg (by simp [← this, hp])]
      exact ih

theorem Pointwise.map_right {R : α → β → Prop} {S : α → γ → Prop} {g : β → γ} (h : ∀ a b, R a b → S a (g b)) :
    ∀ {as : List α} {bs : List β}, Pointwise R as bs → Pointwise S as (bs.map g)
  | _, _, .nil => .nil
  | _ :: _, _ :: _, .cons hd tl => .cons (h _ _ hd) (tl.map_right h)

theorem Pointwise.mono_mem {R S : α → β → Prop} : ∀ {as : List α} {bs : List β},
    (∀ a ∈ as, ∀ b, R a b → S a b) → Pointwise R as bs → Pointwise S as bs
  | _, _, _, .nil => .nil
  | a :: as, _ :: _, h, .cons hd tl =>
    .cons (h a List.mem_cons_self _ hd) (tl.mono_mem fun x hx => h x (List.mem_cons_of_mem _ hx))

theorem Pointwise.length {R : α → β → Prop} : ∀ {as : List α} {bs : List β}, Pointwise R as bs → as.length = bs.length
  | _, _, .nil => rfl
  | _ :: _, _ :: _, .cons _ tl => by simp [tl.length]

theorem Rd.Yields.within {m : Rd α} {P : α → Prop} (h : m.Yields P) (buf : Bytes) :
    (Rd.lift (m.within buf)).Yields P := by
  intro s a r hr
  obtain ⟨r', hr'⟩ := Rd.within_ok (lift_run_ok.1 hr).1
  exact h _ _ _ hr'

theorem Rd.Yields.lift {x : Res α} {P : α → Prop} (h : ∀ a, x = .ok a → P a) : (Rd.lift x).Yields P :=
  fun _ a _ hr => h a (lift_run_ok.1 hr).1

section
variable {V φ : Type} (d : φ → FieldDecl V) (Q : φ → V → Prop)

theorem decodePairs_yields {live removed : FieldDecl V → Rd V} {cur tgt : Nat} : ∀ (fs : List φ),
    (∀ f ∈ fs, (live (d f)).Yields (Q f) ∧ (removed (d f)).Yields (Q f) ∧ ∀ r v, (d f).dflt r = .ok v → Q f v) →
    (decodePairs live removed cur tgt (fs.map d)).Yields (Pointwise (fun f p => f ∈ fs ∧ p.1 = d f ∧ Q f p.2)
      (fs.filter fun f => (d f).existsAt cur || (d f).existsAt tgt))
  | [], _ => Rd.Yields.pure .nil
  | f :: fs, h => by
    have ih := decodePairs_yields (live := live) (removed := removed) (cur := cur) (tgt := tgt) fs
      (fun g hg => h g (List.mem_cons_of_mem _ hg))
    have ih := ih.mono fun ps hps => hps.mono_mem (S := fun g p => g ∈ f :: fs ∧ p.1 = d g ∧ Q g p.2)
      fun g _ p hp => ⟨List.mem_cons_of_mem _ hp.1, hp.2⟩
    have hf := h f List.mem_cons_self
    rw [List.map_cons]
    unfold decodePairs
    refine Rd.Yields.ite (fun hc => ?_) fun hc => ?_
    · rw [List.filter_cons_of_pos (by simpa using hc)]
      refine Rd.Yields.bind (P := Q f) ?_ fun v hv => Rd.Yields.bind ih fun ps hps =>
        Rd.Yields.pure (.cons ⟨List.mem_cons_self, rfl, hv⟩ hps)
      refine Rd.Yields.ite (fun _ => Rd.Yields.ite (fun _ => hf.1) fun _ => hf.2.1) fun _ =>
        Rd.Yields.lift fun v hv => hf.2.2 _ v hv
    · rw [List.filter_cons_of_neg (by simpa using hc)]
      exact ih

theorem applyConverts_yields {cur tgt : Nat} {fs fs' : List φ}
    (hc : ∀ f ∈ fs, ∀ r v this this', Q f v → Pointwise Q (fs.filter fun f => (d f).existsAt tgt) this →
      (d f).convert r v this = .ok this' → Pointwise Q (fs.filter fun f => (d f).existsAt tgt) this') :
    ∀ {ps : List (FieldDecl V × V)} {this this' : List V},
      Pointwise (fun f p => f ∈ fs ∧ p.1 = d f ∧ Q f p.2) fs' ps →
      Pointwise Q (fs.filter fun f => (d f).existsAt tgt) this →
      applyConverts cur ps this = .ok this' → Pointwise Q (fs.filter fun f => (d f).existsAt tgt) this' := by
  intro ps
  induction ps generalizing fs' with
  | nil => intro this this' _ ht h; cases h; exact ht
  | cons p ps ih =>
    intro this this' hp ht h
    obtain ⟨f, v⟩ := p
    cases hp with
    | cons hd tl =>
      obtain ⟨hm, rfl, hq⟩ := hd
      unfold applyConverts at h
      obtain ⟨t1, h1, h2⟩ := Res.bind_eq_ok.1 h
      exact ih tl (hc _ hm _ _ _ _ hq ht h1) h2

theorem decodeStructBody_yields {live removed : FieldDecl V → Rd V} {cur tgt : Nat} (fs : List φ)
    (hn : DistinctNames (fs.map d) cur tgt)
    (hl : ∀ f ∈ fs, (live (d f)).Yields (Q f) ∧ (removed (d f)).Yields (Q f) ∧ ∀ r v, (d f).dflt r = .ok v → Q f v)
    (hc : ∀ f ∈ fs, ∀ r v this this', Q f v → Pointwise Q (fs.filter fun f => (d f).existsAt tgt) this →
      (d f).convert r v this = .ok this' → Pointwise Q (fs.filter fun f => (d f).existsAt tgt) this') :
    (decodeStructBody live removed cur tgt (fs.map d)).Yields (Pointwise Q (fs.filter fun f => (d f).existsAt tgt)) := by
  rw [decodeStructBody_pairs live removed cur tgt _ hn]
  refine Rd.Yields.bind (decodePairs_yields d Q fs hl) fun ps hps => Rd.Yields.lift fun this' h => ?_
  refine applyConverts_yields d Q hc
    (fs' := (fs.filter fun f => (d f).existsAt cur || (d f).existsAt tgt).filter fun f => !(d f).existsAt tgt) ?_ ?_ h
  · exact hps.filter fun f p hp => by rw [hp.2.1]
  · have h1 := (hps.filter (p := fun f => (d f).existsAt tgt) (q := fun p => p.1.existsAt tgt)
      fun f p hp => by rw [hp.2.1]).map_right (S := Q) (g := (·.2)) fun f p hp => hp.2.2
    rw [List.filter_filter] at h1
    have h2 : (fs.filter fun f => (d f).existsAt tgt && ((d f).existsAt cur || (d f).existsAt tgt)) =
        fs.filter fun f => (d f).existsAt tgt := by
      congr 1; funext f; cases (d f).existsAt tgt <;> simp
    rw [h2] at h1
    exact h1

theorem decodeAlive_yields {r : Nat} : ∀ (fs : List φ), (∀ f ∈ fs, (d f).plain.dec.Yields (Q f)) →
    (decodeAlive r (fs.map d)).Yields (Pointwise Q (fs.filter fun f => (d f).existsAt r))
  | [], _ => Rd.Yields.pure .nil
  | f :: fs, h => by
    have ih := decodeAlive_yields (r := r) fs (fun g hg => h g (List.mem_cons_of_mem _ hg))
    have hf := h f List.mem_cons_self
    rw [List.map_cons]
    unfold decodeAlive
    refine Rd.Yields.ite (fun hc => ?_) fun hc => ?_
    · rw [List.filter_cons_of_pos (by simpa using hc)]
      exact Rd.Yields.bind hf fun v hv => Rd.Yields.bind ih fun vs hvs => Rd.Yields.pure (.cons hv hvs)
    · rw [List.filter_cons_of_neg (by simpa using hc)]
      exact ih

/-- All the impls a field can use return values of its type. -/
structure FieldSound (Q : V → Prop) (f : FieldDecl V) : Prop where
  plain : f.plain.dec.Yields Q
  fixedLe : f.fixedLe.dec.Yields Q
  bulk : f.bulk.dec.Yields Q
  indexed : f.indexed.dec.Yields Q
  dflt : ∀ r v, f.dflt r = .ok v → Q v

theorem FieldSound.legacyC {Q : V → Prop} {f : FieldDecl V} (h : FieldSound Q f) : f.legacyC.dec.Yields Q := by
  unfold FieldDecl.legacyC
  split
  · exact h.fixedLe
  · split
    · exact h.bulk
    · exact h.plain

theorem FieldSound.wire {Q : V → Prop} {f : FieldDecl V} (h : FieldSound Q f) (e : Entry) :
    (f.wire e).dec.Yields Q := by
  unfold FieldDecl.wire FieldDecl.optimisedC
  split
  · split
    · exact h.indexed
    · exact h.plain
  · exact h.legacyC

theorem FieldSound.removedDec {Q : V → Prop} {f : FieldDecl V} (h : FieldSound Q f) (e : Entry) :
    (f.removedDec e).Yields Q := by
  unfold FieldDecl.removedDec
  exact Rd.Yields.ite (fun _ => h.plain) fun _ => h.legacyC

theorem deserializeStructBody_yields (e : Entry) (tgt : Nat) (fs : List φ)
    (hn : DistinctNames (fs.map d) e.revision tgt) (hl : ∀ f ∈ fs, FieldSound (Q f) (d f))
    (hc : ∀ f ∈ fs, ∀ r v this this', Q f v → Pointwise Q (fs.filter fun f => (d f).existsAt tgt) this →
      (d f).convert r v this = .ok this' → Pointwise Q (fs.filter fun f => (d f).existsAt tgt) this') :
    (deserializeStructBody e tgt (fs.map d)).Yields (Pointwise Q (fs.filter fun f => (d f).existsAt tgt)) := by
  have hbody := decodeStructBody_yields d Q (live := fun f => (f.wire e).dec) (removed := fun f => f.removedDec e)
    fs hn (fun f hf => ⟨(hl f hf).wire e, (hl f hf).removedDec e, (hl f hf).dflt⟩) hc
  unfold deserializeStructBody
  refine Rd.Yields.ite (fun _ => Rd.Yields.bind_any fun p => ?_) fun _ => hbody
  exact Rd.Yields.ite (fun _ => Rd.Yields.ite (fun _ => Rd.Yields.fail _) fun _ => hbody.within _) fun _ =>
    hbody.within _

end

theorem dispatch_yields (cfg : Cfg) (h : List Entry) {arm : Entry → Rd α} {P : α → Prop}
    (ha : ∀ e ∈ h, (arm e).Yields P) : (dispatchRevision cfg h arm).Yields P := by
  unfold dispatchRevision
  refine Rd.Yields.bind_any fun r => ?_
  cases hf : h.find? (fun e => e.revision == r) with
  | none => exact Rd.Yields.fail _
  | some e => exact ha e (List.mem_of_find?_eq_some hf)

theorem deserializeEnumBody_yields {V : Type} (cfg : Cfg) (e : Entry) (tgt : Nat) (vs : List (VariantDecl V))
    {P : EnumVal V → Prop} (hl : e.optimised = false → ∀ v ∈ vs, v.existsAt e.revision = true →
      (decodeLegacyVariant e tgt v).Yields P)
    (ho : e.optimised = true → ∀ v ∈ vs, v.existsAt e.revision = true → (decodeOptimisedVariant e tgt v).Yields P) :
    (deserializeEnumBody cfg e tgt vs).Yields P := by
  have hm : ∀ {a : Nat × VariantDecl V}, a ∈ variantArms vs e.revision → a.2 ∈ vs ∧ a.2.existsAt e.revision = true := by
    rintro ⟨i, v⟩ h
    have := mem_variantArms.1 h
    exact ⟨this.1, this.2.1⟩
  unfold deserializeEnumBody
  refine Rd.Yields.ite (fun he => Rd.Yields.bind_any fun p => ?_) fun he => Rd.Yields.bind_any fun d => ?_
  · split
    split
    · rename_i a ha
      have := hm (List.mem_of_find?_eq_some ha)
      exact ho he _ this.1 this.2
    · exact Rd.Yields.fail _
  · split
    · rename_i a ha
      have := hm (List.mem_of_find?_eq_some ha)
      exact hl (by simpa using he) _ this.1 this.2
    · exact Rd.Yields.fail _

end Revision
