import Verif.Proofs.Alloc

/-! Helper lemmas: how much memory reading derived types requests. -/

namespace Revision

section
variable {G : Prop} {L : Nat}

open Rd.Upto

open Rd.Eats in
theorem readVarint_eats : readVarint.Eats 1 :=
  bind0 readByte fun _ => ite (pure _) (ite ((bind0 (readExact _) fun _ => pure _).weaken (by omega))
    (ite ((bind0 (readExact _) fun _ => pure _).weaken (by omega))
      (ite ((bind0 (readExact _) fun _ => pure _).weaken (by omega)) (fail _ _))))

theorem checkedMul_ok {a b : Nat} {e : Err} {s r : Bytes} {x : Nat}
    (h : Rd.lift (checkedMul a b e) s = .ok (x, r)) : x = a * b := by
  have := (lift_run_ok.1 h).1
  unfold checkedMul at this
  split at this
  · cases this; rfl
  · cases this

theorem addU_ok {a b : Nat} {s r : Bytes} {x : Nat} (h : Rd.lift (addU a b) s = .ok (x, r)) : x = a + b := by
  have := (lift_run_ok.1 h).1
  unfold addU at this
  split at this
  · cases this; rfl
  · cases this

theorem readIndexedSeq_upto {cap : Nat → Bool} {c d : Rd α} (h : c.Upto G L d) (hw : G → d.Eats 1)
    (hc : G → ∀ n, n ≤ L → cap n = true) : (readIndexedSeq cap c).Upto G L (readIndexedSeq (fun _ => true) d) := by
  have key : ∀ n, (Rd.alloc (cap n) >>= fun _ => Rd.readN n c).Upto G L
      (Rd.alloc true >>= fun _ => Rd.readN n d) := fun n =>
    alloc (readN h n) fun hG s a r hs e => hc hG n (by have := Rd.Eats.readN (hw hG) n _ _ _ e; omega)
  exact bind (refl (Rd.Eats.readByte.weaken (by omega))) fun _ =>
    bind (refl (readVarint_eats.weaken (by omega))) fun n =>
      ite (key n) (bind (refl (Rd.Eats.lift _)) fun _ =>
        bind (refl ((Rd.Eats.advance _).weaken (by omega))) fun _ => key n)

theorem readIndexedMap_upto {pre capK capV : Nat → Bool} {k k' : Rd κ} {v v' : Rd ν} {build}
    (hk : k.Upto G L k') (hv : v.Upto G L v') (hw : G → (pairC ⟨fun _ => True, fun _ => .panic, k', k'.discard,
      k'.discard, k'.discard⟩ ⟨fun _ => True, fun _ => .panic, v', v'.discard, v'.discard, v'.discard⟩).dec.Eats 1)
    (hp : G → ∀ n, n ≤ L → pre n = true)
    (hcK : G → ∀ n, n ≤ L → capK n = true) (hcV : G → ∀ n, n ≤ L → capV n = true) :
    (readIndexedMap pre capK capV k v build).Upto G L
      (readIndexedMap (fun _ => true) (fun _ => true) (fun _ => true) k' v' build) := by
  refine bind (refl (Rd.Eats.readByte.weaken (by omega))) fun flags =>
    bind (refl (readVarint_eats.weaken (by omega))) fun n => alloc (ite ?_ ?_) ?_
  · exact bind (readN (bind hk fun _ => bind hv fun _ => refl (Rd.Eats.pure _)) n) fun _ => refl (Rd.Eats.pure _)
  · refine bind' (refl (Rd.Eats.lift _)) fun s0 t r0 _ e0 => bind' (refl (Rd.Eats.lift _)) fun s1 x r1 _ e1 =>
      bind' (refl ((Rd.Eats.advance _).weaken (by omega))) fun s a r hs e => ?_
    have := checkedMul_ok e0
    have := addU_ok e1
    have := Rd.Eats.advance _ _ _ _ e
    have hn : n ≤ L := by omega
    exact alloc (bind (readN hk n) fun _ => alloc (bind (readN hv n) fun _ => refl (Rd.Eats.pure _))
      fun g _ _ _ _ _ => hcV g n hn) fun g _ _ _ _ _ => hcK g n hn
  · intro g s a r hs e
    refine hp g n ?_
    split at e
    · obtain ⟨l, s1, e1, e2⟩ := Rd.bind_ok.1 e
      have := Rd.Eats.readN (hw g) n _ _ _ e1
      omega
    · obtain ⟨t, s1, e1, e2⟩ := Rd.bind_ok.1 e
      obtain ⟨x, s2, e2, e3⟩ := Rd.bind_ok.1 e2
      obtain ⟨_, s3, e3, _⟩ := Rd.bind_ok.1 e3
      have := checkedMul_ok e1
      have := addU_ok e2
      have h3 := Rd.Eats.advance _ _ _ _ e3
      have := (lift_run_ok.1 e1).2
      have := (lift_run_ok.1 e2).2
      subst_vars
      omega

end

/-! ### Fields -/

/-- The two declarations differ only in what their readers do where memory is refused. -/
structure FieldDecl.Upto {V : Type} (G : Prop) (L : Nat) (f g : FieldDecl V) : Prop where
  name : f.name = g.name
  opts : f.opts = g.opts
  dflt : f.dflt = g.dflt
  convert : f.convert = g.convert
  plain : f.plain.dec.Upto G L g.plain.dec
  fixedLe : f.fixedLe.dec.Upto G L g.fixedLe.dec
  bulk : f.bulk.dec.Upto G L g.bulk.dec
  indexed : f.indexed.dec.Upto G L g.indexed.dec

section
variable {V : Type} {G : Prop} {L : Nat}
open Rd.Upto

theorem FieldDecl.Upto.existsAt {f g : FieldDecl V} (h : f.Upto G L g) : f.existsAt = g.existsAt := by
  funext r; unfold FieldDecl.existsAt; rw [h.opts]

theorem FieldDecl.Upto.legacyC {f g : FieldDecl V} (h : f.Upto G L g) : f.legacyC.dec.Upto G L g.legacyC.dec := by
  unfold FieldDecl.legacyC
  rw [h.opts]
  split
  · exact h.fixedLe
  · split
    · exact h.bulk
    · exact h.plain

theorem FieldDecl.Upto.wire {f g : FieldDecl V} (h : f.Upto G L g) (e : Entry) :
    (f.wire e).dec.Upto G L (g.wire e).dec := by
  unfold FieldDecl.wire FieldDecl.optimisedC FieldDecl.isIndexed
  rw [h.opts]
  split
  · split
    · exact h.indexed
    · exact h.plain
  · exact h.legacyC

theorem FieldDecl.Upto.removedDec {f g : FieldDecl V} (h : f.Upto G L g) (e : Entry) :
    (f.removedDec e).Upto G L (g.removedDec e) := by
  unfold FieldDecl.removedDec
  split
  · exact h.plain
  · exact h.legacyC

variable {φ : Type} {d d' : φ → FieldDecl V}

theorem decodeFields_upto {live removed live' removed' : FieldDecl V → Rd V} {cur tgt : Nat} :
    ∀ (fs : List φ) (env : Binds V), (∀ f ∈ fs, (d f).Upto G L (d' f)) →
    (∀ f ∈ fs, (live (d f)).Upto G L (live' (d' f))) →
    (∀ f ∈ fs, (removed (d f)).Upto G L (removed' (d' f))) →
    (decodeFields live removed cur tgt (fs.map d) env).Upto G L
      (decodeFields live' removed' cur tgt (fs.map d') env)
  | [], env, _, _, _ => refl (Rd.Eats.pure _)
  | f :: fs, env, h, hl, hr => by
    have ih := fun env => decodeFields_upto (cur := cur) (tgt := tgt) fs env
      (fun g hg => h g (List.mem_cons_of_mem _ hg)) (fun g hg => hl g (List.mem_cons_of_mem _ hg))
      (fun g hg => hr g (List.mem_cons_of_mem _ hg))
    have hf := h f List.mem_cons_self
    simp only [List.map_cons, decodeFields, hf.existsAt, hf.name, hf.dflt]
    exact ite (bind (hl f List.mem_cons_self) fun _ => ih _)
      (ite (bind (refl (Rd.Eats.lift _)) fun _ => ih _)
        (ite (bind (hr f List.mem_cons_self) fun _ => ih _) (ih _)))

theorem construct_map {r : Nat} {env : Binds V} : ∀ (fs : List φ), (∀ f ∈ fs, (d f).Upto G L (d' f)) →
    construct r env (fs.map d) = construct r env (fs.map d')
  | [], _ => rfl
  | f :: fs, h => by
    have hf := h f List.mem_cons_self
    simp only [List.map_cons, construct, hf.existsAt, hf.name,
      construct_map fs fun g hg => h g (List.mem_cons_of_mem _ hg)]

theorem runConverts_map {cur tgt : Nat} {env : Binds V} : ∀ (fs : List φ) (this : List V),
    (∀ f ∈ fs, (d f).Upto G L (d' f)) →
    runConverts cur tgt env (fs.map d) this = runConverts cur tgt env (fs.map d') this
  | [], _, _ => rfl
  | f :: fs, this, h => by
    have hf := h f List.mem_cons_self
    have ih := fun this => runConverts_map (cur := cur) (tgt := tgt) (env := env) fs this
      fun g hg => h g (List.mem_cons_of_mem _ hg)
    simp only [List.map_cons, runConverts, hf.existsAt, hf.name, hf.convert, ih]

theorem aliveCount_map {r : Nat} : ∀ (fs : List φ), (∀ f ∈ fs, (d f).Upto G L (d' f)) →
    aliveCount (fs.map d) r = aliveCount (fs.map d') r
  | [], _ => rfl
  | f :: fs, h => by
    have hf := h f List.mem_cons_self
    have ih := aliveCount_map (r := r) fs fun g hg => h g (List.mem_cons_of_mem _ hg)
    unfold aliveCount at *
    simp only [List.map_cons, List.filter_cons, hf.existsAt]
    split
    · simp only [List.length_cons, ih]
    · exact ih

theorem decodeStructBody_upto {live removed live' removed' : FieldDecl V → Rd V} {cur tgt : Nat}
    (fs : List φ) (h : ∀ f ∈ fs, (d f).Upto G L (d' f))
    (hl : ∀ f ∈ fs, (live (d f)).Upto G L (live' (d' f)))
    (hr : ∀ f ∈ fs, (removed (d f)).Upto G L (removed' (d' f))) :
    (decodeStructBody live removed cur tgt (fs.map d)).Upto G L
      (decodeStructBody live' removed' cur tgt (fs.map d')) := by
  unfold decodeStructBody
  refine bind (decodeFields_upto fs [] h hl hr) fun env => ?_
  rw [construct_map fs h]
  refine bind (refl (Rd.Eats.lift _)) fun this => ?_
  rw [runConverts_map fs this h]
  exact refl (Rd.Eats.lift _)

/-- Reading a buffer that is part of the input. -/
theorem Rd.Upto.within {m n : Rd α} (h : m.Upto G L n) {b : Bytes} (hb : b.length ≤ L) :
    (Rd.lift (m.within b)).Upto G L (Rd.lift (n.within b)) := by
  obtain ⟨h1, h2, h3⟩ := h b hb
  intro s hs
  refine ⟨?_, fun a r e => by rw [(lift_run_ok.1 e).2]; exact Nat.le_refl _, fun hG a r e => ?_⟩
  · rcases h1 with h1 | h1
    · left; simp [Rd.within, h1]
    · right; simp [Rd.within, h1]
  · obtain ⟨e1, e2⟩ := lift_run_ok.1 e
    obtain ⟨r', e1⟩ := Rd.within_ok e1
    refine lift_run_ok.2 ⟨?_, e2⟩
    simp [Rd.within, h3 hG _ _ e1]

theorem readExact_length {n : Nat} {s a r : Bytes} (h : Rd.readExact n s = .ok (a, r)) : a.length ≤ s.length := by
  unfold Rd.readExact at h
  simp only at h
  split at h
  · cases h; simp; omega
  · cases h

open Rd.Eats in
theorem readVarlenLen_eats : readVarlenLen.Eats 0 := (bind0 (readExact 4) fun _ => pure _).weaken (by omega)

open Rd.Eats in
theorem readLengthPrefixed_eats : readLengthPrefixed.Eats 0 :=
  bind0 readVarlenLen_eats fun _ => (readExact _).weaken (by omega)

theorem readLengthPrefixed_length {s a r : Bytes} (h : readLengthPrefixed s = .ok (a, r)) :
    a.length ≤ s.length := by
  obtain ⟨n, s1, h1, h2⟩ := Rd.bind_ok.1 h
  have := readVarlenLen_eats _ _ _ h1
  have := readExact_length h2
  omega

theorem deserializeStructBody_upto (e : Entry) (tgt : Nat) (fs : List φ) (h : ∀ f ∈ fs, (d f).Upto G L (d' f)) :
    (deserializeStructBody e tgt (fs.map d)).Upto G L (deserializeStructBody e tgt (fs.map d')) := by
  have hb := decodeStructBody_upto (cur := e.revision) (tgt := tgt) (live := fun f => (f.wire e).dec)
    (live' := fun f => (f.wire e).dec) (removed := fun f => f.removedDec e) (removed' := fun f => f.removedDec e) fs h
    (fun f hf => (h f hf).wire e) (fun f hf => (h f hf).removedDec e)
  unfold deserializeStructBody
  refine ite (bind' (refl readLengthPrefixed_eats) fun s p r hs hp => ?_) hb
  have hl := readLengthPrefixed_length hp
  rw [aliveCount_map fs h]
  exact ite (ite (refl (Rd.Eats.fail _ _)) (hb.within (by simp; omega))) (hb.within (by omega))

theorem dispatch_upto (cfg : Cfg) (h : List Entry) {arm arm' : Entry → Rd α} (ha : ∀ e, (arm e).Upto G L (arm' e)) :
    (dispatchRevision cfg h arm).Upto G L (dispatchRevision cfg h arm') := by
  unfold dispatchRevision
  refine bind (refl ((readU16_eats cfg).weaken (by omega))) fun r => ?_
  cases h.find? (fun e => e.revision == r) with
  | none => exact refl (Rd.Eats.fail _ _)
  | some e => exact ha e

/-! ### Enums -/

/-- The two declarations of a variant differ only in their fields' readers. -/
structure VariantDecl.Upto (G : Prop) (L : Nat) (fs : List φ) (d d' : φ → FieldDecl V) (v w : VariantDecl V) :
    Prop where
  ident : v.ident = w.ident
  opts : v.opts = w.opts
  convert : v.convert = w.convert
  left : v.fields = fs.map d
  right : w.fields = fs.map d'
  fields : ∀ f ∈ fs, (d f).Upto G L (d' f)

theorem VariantDecl.Upto.existsAt {fs : List φ} {v w : VariantDecl V} (h : v.Upto G L fs d d' w) :
    v.existsAt = w.existsAt := by
  funext r; unfold VariantDecl.existsAt; rw [h.opts]

theorem decodeLegacyVariant_upto (e : Entry) (tgt : Nat) {fs : List φ} {v w : VariantDecl V}
    (h : v.Upto G L fs d d' w) : (decodeLegacyVariant e tgt v).Upto G L (decodeLegacyVariant e tgt w) := by
  unfold decodeLegacyVariant
  rw [h.left, h.right, h.existsAt, h.ident, h.convert]
  exact bind (decodeStructBody_upto fs h.fields (fun f hf => (h.fields f hf).legacyC)
    (fun f hf => (h.fields f hf).legacyC)) fun _ => ite (refl (Rd.Eats.pure _)) (refl (Rd.Eats.lift _))

theorem decodeAlive_upto {r : Nat} : ∀ (fs : List φ), (∀ f ∈ fs, (d f).Upto G L (d' f)) →
    (decodeAlive r (fs.map d)).Upto G L (decodeAlive r (fs.map d'))
  | [], _ => refl (Rd.Eats.pure _)
  | f :: fs, h => by
    have ih := decodeAlive_upto (r := r) fs fun g hg => h g (List.mem_cons_of_mem _ hg)
    have hf := h f List.mem_cons_self
    simp only [List.map_cons, decodeAlive, hf.existsAt]
    exact ite (bind hf.plain fun _ => bind ih fun _ => refl (Rd.Eats.pure _)) ih

theorem readSized_eats (size : VariantSize) : (readSized size).Eats 0 := by
  cases size with
  | inline => exact Rd.Eats.pure _
  | fixed n => exact (Rd.Eats.readExact _).weaken (by omega)
  | varlen => exact readLengthPrefixed_eats

theorem readSized_length {size : VariantSize} {s a r : Bytes} (h : readSized size s = .ok (a, r)) :
    a.length ≤ s.length := by
  cases size with
  | inline => cases h; simp
  | fixed n => exact readExact_length h
  | varlen => exact readLengthPrefixed_length h

theorem decodeOptimisedVariant_upto (e : Entry) (tgt : Nat) {fs : List φ} {v w : VariantDecl V}
    (h : v.Upto G L fs d d' w) : (decodeOptimisedVariant e tgt v).Upto G L (decodeOptimisedVariant e tgt w) := by
  unfold decodeOptimisedVariant
  rw [h.left, h.right, h.existsAt, h.ident, h.convert, h.opts]
  refine bind' (refl (readSized_eats _)) fun s b r hs hb => ?_
  have := readSized_length hb
  exact bind ((decodeAlive_upto fs h.fields).within (by omega)) fun _ =>
    ite (refl (Rd.Eats.pure _)) (refl (Rd.Eats.lift _))

variable {ψ : Type} {e e' : ψ → VariantDecl V} {F : ψ → List φ}

theorem sig_map (vs : List ψ) (h : ∀ v ∈ vs, (e v).Upto G L (F v) d d' (e' v)) :
    (vs.map e).map VariantDecl.sig = (vs.map e').map VariantDecl.sig := by
  rw [List.map_map, List.map_map]
  refine List.map_congr_left fun v hv => ?_
  have hv := h v hv
  have hf : (e v).fields.map (·.opts) = (e' v).fields.map (·.opts) := by
    rw [hv.left, hv.right, List.map_map, List.map_map]
    exact List.map_congr_left fun f hf => (hv.fields f hf).opts
  simp only [Function.comp, VariantDecl.sig, hv.ident, hv.opts, hf]

theorem discsAt_map (vs : List ψ) (h : ∀ v ∈ vs, (e v).Upto G L (F v) d d' (e' v)) (r : Nat) :
    discsAt (vs.map e) r = discsAt (vs.map e') r := by
  unfold discsAt; rw [sig_map vs h]

/-- The arms of the two enums side by side. -/
theorem variantArms_upto (vs : List ψ) (h : ∀ v ∈ vs, (e v).Upto G L (F v) d d' (e' v)) (r : Nat) :
    ∃ l : List (Nat × ψ), (∀ a ∈ l, a.2 ∈ vs) ∧ variantArms (vs.map e) r = l.map (fun a => (a.1, e a.2)) ∧
      variantArms (vs.map e') r = l.map (fun a => (a.1, e' a.2)) := by
  unfold variantArms
  rw [discsAt_map vs h]
  generalize discsAt (vs.map e') r = D
  have : ∀ us : List ψ, (∀ v ∈ us, v ∈ vs) → ∃ l : List (Nat × ψ), (∀ a ∈ l, a.2 ∈ vs) ∧
      ((us.map e).filter (·.existsAt r)).filterMap (fun v => (D.lookup v.ident).map (·, v)) =
        l.map (fun a => (a.1, e a.2)) ∧
      ((us.map e').filter (·.existsAt r)).filterMap (fun v => (D.lookup v.ident).map (·, v)) =
        l.map (fun a => (a.1, e' a.2)) := by
    intro us
    induction us with
    | nil => exact fun _ => ⟨[], by simp, rfl, rfl⟩
    | cons v us ih =>
      intro hus
      obtain ⟨l, h1, h2, h3⟩ := ih fun w hw => hus w (List.mem_cons_of_mem _ hw)
      have hv := h v (hus v List.mem_cons_self)
      simp only [List.map_cons, List.filter_cons, hv.existsAt]
      split
      · simp only [List.filterMap_cons, hv.ident]
        cases D.lookup (e' v).ident with
        | none => exact ⟨l, h1, h2, h3⟩
        | some x =>
          refine ⟨(x, v) :: l, ?_, by simp [h2], by simp [h3]⟩
          intro a ha
          rcases List.mem_cons.1 ha with rfl | ha
          · exact hus v List.mem_cons_self
          · exact h1 a ha
      · exact ⟨l, h1, h2, h3⟩
  exact this vs fun v hv => hv

theorem find_arms {l : List (Nat × ψ)} {P : Nat × VariantDecl V → Bool}
    (h : ∀ a ∈ l, P (a.1, e a.2) = P (a.1, e' a.2)) :
    ((l.map fun a => (a.1, e a.2)).find? P = none ∧ (l.map fun a => (a.1, e' a.2)).find? P = none) ∨
    ∃ a ∈ l, (l.map fun a => (a.1, e a.2)).find? P = some (a.1, e a.2) ∧
      (l.map fun a => (a.1, e' a.2)).find? P = some (a.1, e' a.2) := by
  induction l with
  | nil => exact .inl ⟨rfl, rfl⟩
  | cons a l ih =>
    simp only [List.map_cons, List.find?_cons, h a List.mem_cons_self]
    cases hP : P (a.1, e' a.2) with
    | true => exact .inr ⟨a, List.mem_cons_self, rfl, rfl⟩
    | false =>
      rcases ih fun b hb => h b (List.mem_cons_of_mem _ hb) with ih | ⟨b, hb, ih⟩
      · exact .inl ih
      · exact .inr ⟨b, List.mem_cons_of_mem _ hb, ih⟩

open Rd.Eats in
theorem readOptimisedTag_eats : readOptimisedTag.Eats 0 :=
  (bind0 readByte fun _ => bind0 (lift _) fun _ => pure _).weaken (by omega)

theorem deserializeEnumBody_upto (cfg : Cfg) (en : Entry) (tgt : Nat) (vs : List ψ)
    (h : ∀ v ∈ vs, (e v).Upto G L (F v) d d' (e' v)) :
    (deserializeEnumBody cfg en tgt (vs.map e)).Upto G L (deserializeEnumBody cfg en tgt (vs.map e')) := by
  obtain ⟨l, hl, h1, h2⟩ := variantArms_upto vs h en.revision
  unfold deserializeEnumBody
  rw [h1, h2]
  refine ite (bind (refl readOptimisedTag_eats) fun p => ?_) (bind (refl ((readU32_eats cfg).weaken (by omega))) fun x => ?_)
  · obtain ⟨tag, sc⟩ := p
    simp only
    rcases find_arms (l := l) (e := e) (e' := e') (P := fun a =>
        UInt8.ofNat a.1 == tag.variantId && (a.2.opts.size.getD .inline).cls == sc)
      (fun a ha => by simp only [(h _ (hl a ha)).opts]) with ⟨e1, e2⟩ | ⟨a, ha, e1, e2⟩
    · rw [e1, e2]; exact refl (Rd.Eats.fail _ _)
    · rw [e1, e2]; exact decodeOptimisedVariant_upto en tgt (h _ (hl a ha))
  · rcases find_arms (l := l) (e := e) (e' := e') (P := fun a => a.1 == x) (fun a ha => rfl) with
      ⟨e1, e2⟩ | ⟨a, ha, e1, e2⟩
    · rw [e1, e2]; exact refl (Rd.Eats.fail _ _)
    · rw [e1, e2]; exact decodeLegacyVariant_upto en tgt (h _ (hl a ha))

end

/-! ### Programs -/

section
variable {ι : Type} {K : ι → Kind} [DecidableEq ι] {G : Prop} {L : Nat}


theorem Field.decl_convert (cfg : Cfg) (I : Impls K) (n : Nat) (c : (i : ι) → Codec (Values K n i)) (f : Field K)
    (r : Nat) (v : DynAt K n) (this : List (DynAt K n)) : (f.decl cfg I n c).convert r v this =
      (Dyn.proj (E := I.env n c) f.ty v).elim .panic fun a => f.convert n r a this := by
  unfold Field.decl tyField
  simp only
  cases Dyn.proj (E := I.env n c) f.ty v <;> rfl

open Rd.Upto in
theorem Field.decl_upto (cfg : Cfg) (I : Impls K) (n : Nat) (hG : G → GrantsFor I.cap L)
    {c c' : (i : ι) → Codec (Values K n i)} (hc : ∀ i, (c i).dec.Upto G L (c' i).dec)
    (hw : ∀ i, (c' i).dec.Eats 1) (f : Field K) (hf : G → f.ty.solid = true) :
    (f.decl cfg I n c).Upto G L (f.decl cfg I.unlimited n c') := by
  have cap : ∀ t : Ty ι, G → ∀ n, n ≤ L → I.cap t n = true := fun t g n hn => hG g t n (by
    cases t <;> simp only [Ty.perByte] <;> omega)
  have ht := fun (t : Ty ι) h => Ty.codec_upto (E := I.env n c) (c' := c') cfg hG hc hw t h
  have eats := fun t : Ty ι => Ty.codec_eats cfg (I.unlimited.env n c') hw t
  have one : ∀ t : Ty ι, t.weightless = false → (t.codec cfg (I.unlimited.env n c')).dec.Eats 1 := fun t h => by
    have := eats t
    simpa [h] using this
  have emb : ∀ (t : Ty ι) {a b : Codec (t.denote (Values K n))}, a.dec.Upto G L b.dec →
      (dynC (E := I.env n c) t a).dec.Upto G L (dynC (E := I.unlimited.env n c') t b).dec :=
    fun t a b h => bind h fun _ => refl (Rd.Eats.pure _)
  rcases f with ⟨name, opts, t, dflt, convert⟩
  simp only at hf
  refine ⟨rfl, rfl, rfl, by funext r v this; rw [Field.decl_convert, Field.decl_convert]; rfl, emb t (ht t hf), emb t ?_, emb t ?_, emb t ?_⟩
  · have h := ht t hf
    cases t <;> try exact h
    rename_i k
    have hr : ∀ n : Nat, (fixedC n).dec.Upto G L (fixedC n).dec := fun n => refl ((readLE_eats _ _).weaken (by omega))
    cases k <;> first | exact h | exact hr 4 | exact hr 8 | exact hr 16
  · have h := ht t hf
    cases t <;> try exact h
    rename_i t
    simp only [Ty.solid, Bool.and_eq_true, Bool.not_eq_true'] at hf
    exact vecOf_upto (E := I.env n c) (c' := c') _ hG t (ht t fun g => (hf g).2) fun g => one t (hf g).1
  · have h := ht t hf
    have map : ∀ (k v : Ty ι) (build : List (k.denote (Values K n) × v.denote (Values K n)) → _) (pre : Nat → Bool),
        (G → ∀ m, m ≤ L → pre m = true) → (G → (k.weightless && v.weightless) = false ∧ k.solid = true ∧ v.solid = true) →
        (readIndexedMap pre (I.cap k) (I.cap v) (k.codec cfg (I.env n c)).dec (v.codec cfg (I.env n c)).dec build).Upto G L
          (readIndexedMap (fun _ => true) (fun _ => true) (fun _ => true) (k.codec cfg (I.unlimited.env n c')).dec
            (v.codec cfg (I.unlimited.env n c')).dec build) := by
      intro k v build pre hp hkv
      exact readIndexedMap_upto (ht k fun g => (hkv g).2.1) (ht v fun g => (hkv g).2.2)
        (fun g => one (.pair k v) (hkv g).1) hp (cap k) (cap v)
    have seq : ∀ t : Ty ι, (G → t.weightless = false ∧ t.solid = true) →
        (readIndexedSeq (I.cap t) (t.codec cfg (I.env n c)).dec).Upto G L
          (readIndexedSeq (fun _ => true) (t.codec cfg (I.unlimited.env n c')).dec) := by
      intro t h
      exact readIndexedSeq_upto (ht t fun g => (h g).2) (fun g => one t (h g).1) (cap t)
    cases t <;> try exact h
    case vec t =>
      simp only [Ty.solid, Bool.and_eq_true, Bool.not_eq_true'] at hf
      exact seq t hf
    case vector t =>
      simp only [Ty.solid, Bool.and_eq_true, Bool.not_eq_true'] at hf
      exact seq t hf
    case btreeSet t =>
      simp only [Ty.solid, Bool.and_eq_true, Bool.not_eq_true'] at hf
      exact bind (seq t hf) fun _ => refl (Rd.Eats.pure _)
    case hashSet t =>
      simp only [Ty.solid, Bool.and_eq_true, Bool.not_eq_true'] at hf
      exact bind (seq t hf) fun _ => refl (Rd.Eats.pure _)
    case btreeMap k v =>
      simp only [Ty.solid, Bool.and_eq_true, Bool.not_eq_true'] at hf
      exact map k v _ _ (fun _ _ _ => rfl) fun g => ⟨(hf g).1.1, (hf g).1.2, (hf g).2⟩
    case hashMap k v =>
      simp only [Ty.solid, Bool.and_eq_true, Bool.not_eq_true'] at hf
      exact map k v _ _ (cap _) fun g => ⟨(hf g).1.1, (hf g).1.2, (hf g).2⟩

omit [DecidableEq ι] in
theorem Codec.Heavy.eats {α : Type} {c : Codec α} (h : c.Heavy) : c.dec.Eats 1 := h

theorem Body.codec_upto (cfg : Cfg) (I : Impls K) (n : Nat) (hG : G → GrantsFor I.cap L)
    {c c' : (i : ι) → Codec (Values K n i)} (hc : ∀ i, (c i).dec.Upto G L (c' i).dec)
    (hw : ∀ i, (c' i).dec.Eats 1) (h : List Entry) :
    {k : Kind} → (b : Body K k) → (G → ∀ t ∈ b.types, t.solid = true) →
      (b.codec cfg I n c h).dec.Upto G L (b.codec cfg I.unlimited n c' h).dec
  | _, .struct fs, ht => dispatch_upto cfg h fun e => deserializeStructBody_upto e _ fs fun f hf =>
      f.decl_upto cfg I n hG hc hw fun g => ht g _ (List.mem_map_of_mem hf)
  | _, .enum vs, ht => dispatch_upto cfg h fun e => deserializeEnumBody_upto cfg e _ vs
      (F := fun v => v.fields) fun v hv => ⟨rfl, rfl, rfl, rfl, rfl, fun f hf =>
        f.decl_upto cfg I n hG hc hw fun g => ht g _ (List.mem_flatMap.2 ⟨v, hv, List.mem_map_of_mem hf⟩)⟩
  | _, .foreign x, _ => Rd.Upto.refl (x.heavy.eats.weaken (by omega))

end

section
variable {α : Type}

open Rd.Eats in
theorem dispatch_eats (cfg : Cfg) (h : List Entry) {arm : Entry → Rd α} (ha : ∀ e, (arm e).Eats 0) :
    (dispatchRevision cfg h arm).Eats 1 := by
  unfold dispatchRevision
  refine bind0 (readU16_eats cfg) fun r => ?_
  cases h.find? (fun e => e.revision == r) with
  | none => exact fail _ _
  | some e => exact ha e

end

theorem Rd.Upto.eats {m n : Rd α} {G : Prop} (h : ∀ L, m.Upto G L n) : n.Eats 0 :=
  fun s a r e => (h s.length s (Nat.le_refl _)).2.1 a r e

section
variable {ι : Type} {K : ι → Kind} [DecidableEq ι]

theorem Body.codec_eats (cfg : Cfg) (I : Impls K) (n : Nat) {c : (i : ι) → Codec (Values K n i)}
    (hw : ∀ i, (c i).dec.Eats 1) (h : List Entry) : {k : Kind} → (b : Body K k) → (b.codec cfg I.unlimited n c h).dec.Eats 1
  | _, .struct fs => dispatch_eats cfg h fun e => Rd.Upto.eats (G := False) fun L =>
      deserializeStructBody_upto e _ fs fun f _ => f.decl_upto (G := False) (L := L) (c := c) (c' := c) cfg I.unlimited n nofun
        (fun i => Rd.Upto.refl ((hw i).weaken (by omega))) hw nofun
  | _, .enum vs => dispatch_eats cfg h fun e => Rd.Upto.eats (G := False) fun L =>
      deserializeEnumBody_upto cfg e _ vs (F := fun v => v.fields) fun v _ => ⟨rfl, rfl, rfl, rfl, rfl, fun f _ =>
        f.decl_upto (G := False) (L := L) (c := c) (c' := c) cfg I.unlimited n nofun (fun i => Rd.Upto.refl ((hw i).weaken (by omega))) hw nofun⟩
  | _, .foreign x => x.heavy.eats

end

variable {ι : Type} [DecidableEq ι]

/-- Records take at least one byte, those of derived types the revision. -/
theorem Program.codec_eats (cfg : Cfg) (P : Program ι) (I : Impls P.kind) :
    ∀ (n : Nat) (i : ι), (P.codec cfg I.unlimited n i).dec.Eats 1
  | 0, _ => Rd.Eats.fail _ _
  | n + 1, i => Body.codec_eats cfg I n (Program.codec_eats cfg P I n) (P.history i) (P.body i)

theorem Program.codec_upto (cfg : Cfg) (P : Program ι) (I : Impls P.kind) {G : Prop} {L : Nat}
    (hG : G → GrantsFor I.cap L) (hP : G → ∀ i, ∀ t ∈ (P.body i).types, t.solid = true) :
    ∀ (n : Nat) (i : ι), (P.codec cfg I n i).dec.Upto G L (P.codec cfg I.unlimited n i).dec
  | 0, _ => Rd.Upto.refl (Rd.Eats.fail _ _)
  | n + 1, i => Body.codec_upto cfg I n hG (Program.codec_upto cfg P I hG hP n) (Program.codec_eats cfg P I n)
      (P.history i) (P.body i) fun g => hP g i

end Revision
