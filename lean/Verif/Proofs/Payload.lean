import Verif.Proofs.AllocProgram
import Verif.Model.Payload

/-! Helper lemmas: the buffers of optimised payloads. -/

namespace Revision

section
variable {V : Type} {G : Prop} {L : Nat} {cap : Nat → Bool}
open Rd.Upto

theorem Rd.Upto.alloc_left {b : Bool} {m n : Rd α} (h : Upto G L m n)
    (hb : G → ∀ s a r, s.length ≤ L → n s = .ok (a, r) → b = true) :
    Upto G L (Rd.alloc b >>= fun _ => m) n := h.alloc hb

theorem readExactBuf_upto (hc : G → ∀ n, n ≤ L → cap n = true) (n : Nat) :
    (Rd.alloc (cap n) >>= fun _ => Rd.readExact n).Upto G L (Rd.readExact n) :=
  alloc_left (refl ((Rd.Eats.readExact n).weaken (by omega))) fun hG s a r hs e =>
    hc hG n (by have := Rd.Eats.readExact n _ _ _ e; omega)

theorem readLengthPrefixedBuf_upto (hc : G → ∀ n, n ≤ L → cap n = true) :
    (readLengthPrefixedBuf cap).Upto G L readLengthPrefixed :=
  bind (refl readVarlenLen_eats) fun n => readExactBuf_upto hc n

theorem readSizedBuf_upto (hc : G → ∀ n, n ≤ L → cap n = true) (size : VariantSize) :
    (readSizedBuf cap size).Upto G L (readSized size) := by
  cases size with
  | inline => exact refl (Rd.Eats.pure _)
  | fixed n => exact readExactBuf_upto hc n
  | varlen => exact readLengthPrefixedBuf_upto hc

variable {φ : Type} {d d' : φ → FieldDecl V}

theorem deserializeStructBodyBuf_upto (hc : G → ∀ n, n ≤ L → cap n = true) (e : Entry) (tgt : Nat) (fs : List φ)
    (h : ∀ f ∈ fs, (d f).Upto G L (d' f)) :
    (deserializeStructBodyBuf cap e tgt (fs.map d)).Upto G L (deserializeStructBody e tgt (fs.map d')) := by
  have hb := decodeStructBody_upto (cur := e.revision) (tgt := tgt) (live := fun f => (f.wire e).dec)
    (live' := fun f => (f.wire e).dec) (removed := fun f => f.removedDec e) (removed' := fun f => f.removedDec e) fs h
    (fun f hf => (h f hf).wire e) (fun f hf => (h f hf).removedDec e)
  unfold deserializeStructBodyBuf deserializeStructBody
  refine ite (bind' (readLengthPrefixedBuf_upto hc) fun s p r hs hp => ?_) hb
  have hl := readLengthPrefixed_length hp
  rw [aliveCount_map fs h]
  exact ite (ite (refl (Rd.Eats.fail _ _)) (hb.within (by simp; omega))) (hb.within (by omega))

theorem decodeOptimisedVariantBuf_upto (hc : G → ∀ n, n ≤ L → cap n = true) (e : Entry) (tgt : Nat) {fs : List φ}
    {v w : VariantDecl V} (h : v.Upto G L fs d d' w) :
    (decodeOptimisedVariantBuf cap e tgt v).Upto G L (decodeOptimisedVariant e tgt w) := by
  unfold decodeOptimisedVariantBuf decodeOptimisedVariant
  rw [h.left, h.right, h.existsAt, h.ident, h.convert, h.opts]
  refine bind' (readSizedBuf_upto hc _) fun s b r hs hb => ?_
  have := readSized_length hb
  exact bind ((decodeAlive_upto fs h.fields).within (by omega)) fun _ =>
    ite (refl (Rd.Eats.pure _)) (refl (Rd.Eats.lift _))

variable {ψ : Type} {e e' : ψ → VariantDecl V} {F : ψ → List φ}

theorem deserializeEnumBodyBuf_upto (hc : G → ∀ n, n ≤ L → cap n = true) (cfg : Cfg) (en : Entry) (tgt : Nat)
    (vs : List ψ) (h : ∀ v ∈ vs, (e v).Upto G L (F v) d d' (e' v)) :
    (deserializeEnumBodyBuf cfg cap en tgt (vs.map e)).Upto G L (deserializeEnumBody cfg en tgt (vs.map e')) := by
  obtain ⟨l, hl, h1, h2⟩ := variantArms_upto vs h en.revision
  unfold deserializeEnumBodyBuf deserializeEnumBody
  rw [h1, h2]
  refine ite (bind (refl readOptimisedTag_eats) fun p => ?_) (bind (refl ((readU32_eats cfg).weaken (by omega))) fun x => ?_)
  · obtain ⟨tag, sc⟩ := p
    simp only
    rcases find_arms (l := l) (e := e) (e' := e') (P := fun a =>
        UInt8.ofNat a.1 == tag.variantId && (a.2.opts.size.getD .inline).cls == sc)
      (fun a ha => by simp only [(h _ (hl a ha)).opts]) with ⟨e1, e2⟩ | ⟨a, ha, e1, e2⟩
    · rw [e1, e2]; exact refl (Rd.Eats.fail _ _)
    · rw [e1, e2]; exact decodeOptimisedVariantBuf_upto hc en tgt (h _ (hl a ha))
  · rcases find_arms (l := l) (e := e) (e' := e') (P := fun a => a.1 == x) (fun a ha => rfl) with
      ⟨e1, e2⟩ | ⟨a, ha, e1, e2⟩
    · rw [e1, e2]; exact refl (Rd.Eats.fail _ _)
    · rw [e1, e2]; exact decodeLegacyVariant_upto en tgt (h _ (hl a ha))

end

section
variable {ι : Type} {K : ι → Kind} [DecidableEq ι] {G : Prop} {L : Nat}

theorem Body.bufCodec_upto (cfg : Cfg) (I : Impls K) (n : Nat) (hG : G → GrantsFor I.cap L)
    {c c' : (i : ι) → Codec (Values K n i)} (hc : ∀ i, (c i).dec.Upto G L (c' i).dec)
    (hw : ∀ i, (c' i).dec.Eats 1) (h : List Entry) :
    {k : Kind} → (b : Body K k) → (G → ∀ t ∈ b.types, t.solid = true) →
      (b.bufCodec cfg I n c h).dec.Upto G L (b.codec cfg I.unlimited n c' h).dec
  | _, .struct fs, ht => dispatch_upto cfg h fun e => deserializeStructBodyBuf_upto
      (fun g m hm => hG g _ m (by simpa [Ty.perByte] using hm)) e _ fs fun f hf =>
        f.decl_upto cfg I n hG hc hw fun g => ht g _ (List.mem_map_of_mem hf)
  | _, .enum vs, ht => dispatch_upto cfg h fun e => deserializeEnumBodyBuf_upto
      (fun g m hm => hG g _ m (by simpa [Ty.perByte] using hm)) cfg e _ vs
      (F := fun v => v.fields) fun v hv => ⟨rfl, rfl, rfl, rfl, rfl, fun f hf =>
        f.decl_upto cfg I n hG hc hw fun g => ht g _ (List.mem_flatMap.2 ⟨v, hv, List.mem_map_of_mem hf⟩)⟩
  | _, .foreign x, _ => Rd.Upto.refl (x.heavy.eats.weaken (by omega))

end

variable {ι : Type} [DecidableEq ι]

theorem Program.bufCodec_upto (cfg : Cfg) (P : Program ι) (I : Impls P.kind) {G : Prop} {L : Nat}
    (hG : G → GrantsFor I.cap L) (hP : G → ∀ i, ∀ t ∈ (P.body i).types, t.solid = true) :
    ∀ (n : Nat) (i : ι), (P.bufCodec cfg I n i).dec.Upto G L (P.codec cfg I.unlimited n i).dec
  | 0, _ => Rd.Upto.refl (Rd.Eats.fail _ _)
  | n + 1, i => Body.bufCodec_upto cfg I n hG (Program.bufCodec_upto cfg P I hG hP n) (Program.codec_eats cfg P I n)
      (P.history i) (P.body i) fun g => hP g i

/-! ### An allocator that grants 4 GiB -/

theorem readVarlenLen_lt {s r : Bytes} {n : Nat} (h : readVarlenLen s = .ok (n, r)) : n < 2 ^ 32 := by
  obtain ⟨b, s1, h1, h2⟩ := Rd.bind_ok.1 h
  cases h2
  unfold Rd.readExact at h1
  simp only at h1
  split at h1
  · cases h1
    refine Nat.lt_of_lt_of_le (leVal_lt _) ?_
    have : (256 : Nat) ^ (s.take 4).length ≤ 256 ^ 4 := Nat.pow_le_pow_right (by omega) (by simp; omega)
    omega
  · cases h1

theorem readLengthPrefixedBuf_eq {cap : Nat → Bool} (h : ∀ n, n < 2 ^ 32 → cap n = true) :
    readLengthPrefixedBuf cap = readLengthPrefixed := by
  have ext : ∀ {m n : Rd Bytes}, (∀ s, m s = n s) → m = n := fun {m n} h => by
    cases m; cases n; congr; funext s; exact h s
  refine ext fun s => ?_
  unfold readLengthPrefixedBuf readLengthPrefixed
  simp only [Rd.bind_run]
  cases hn : readVarlenLen s with
  | ok p => simp only [h _ (readVarlenLen_lt (n := p.1) (r := p.2) hn)]; rfl
  | err e => rfl
  | panic => rfl

theorem structBufC_eq {V : Type} {cfg : Cfg} {cap : Nat → Bool} (h : ∀ n, n < 2 ^ 32 → cap n = true)
    (hs : List Entry) (fs : List (FieldDecl V)) : structBufC cfg cap hs fs = structC cfg hs fs := by
  unfold structBufC deserializeStructBodyBuf
  rw [readLengthPrefixedBuf_eq h]
  rfl

theorem readSizedBuf_eq {cap : Nat → Bool} (h : ∀ n, n < 2 ^ 32 → cap n = true) (size : VariantSize)
    (hs : ∀ n, size = .fixed n → n < 256) : readSizedBuf cap size = readSized size := by
  cases size with
  | inline => rfl
  | fixed n =>
    have := hs n rfl
    simp only [readSizedBuf, h n (by omega)]
    rfl
  | varlen => exact readLengthPrefixedBuf_eq h

theorem find_arms_mem {V : Type} {vs : List (VariantDecl V)} {r : Nat} {p : Nat × VariantDecl V → Bool}
    {a : Nat × VariantDecl V} (h : (variantArms vs r).find? p = some a) : a.2 ∈ vs := by
  have := List.mem_of_find?_eq_some h
  unfold variantArms at this
  obtain ⟨v, hv, e⟩ := List.mem_filterMap.1 this
  cases hd : (discsAt vs r).lookup v.ident with
  | none => rw [hd] at e; cases e
  | some x => rw [hd] at e; cases e; exact (List.mem_filter.1 hv).1

theorem enumBufC_eq {V : Type} {cfg : Cfg} {cap : Nat → Bool} (h : ∀ n, n < 2 ^ 32 → cap n = true)
    (hs : List Entry) (vs : List (VariantDecl V))
    (hv : ∀ v ∈ vs, ∀ n, v.opts.size = some (.fixed n) → n < 256) : enumBufC cfg cap hs vs = enumC cfg hs vs := by
  have key : ∀ e tgt, deserializeEnumBodyBuf cfg cap e tgt vs = deserializeEnumBody cfg e tgt vs := by
    intro e tgt
    unfold deserializeEnumBodyBuf deserializeEnumBody
    congr 1
    congr 1
    funext ⟨tag, sc⟩
    dsimp only
    generalize ha : (variantArms vs e.revision).find? (fun a =>
      UInt8.ofNat a.1 == tag.variantId && (a.2.opts.size.getD .inline).cls == sc) = q
    rcases q with _ | a
    · rfl
    · dsimp only
      unfold decodeOptimisedVariantBuf decodeOptimisedVariant
      rw [readSizedBuf_eq h]
      intro n hn
      cases hsz : a.2.opts.size with
      | none => rw [hsz] at hn; cases hn
      | some x => rw [hsz] at hn; exact hv _ (find_arms_mem ha) n (by rw [hsz, ← hn]; rfl)
  unfold enumBufC
  simp only [key]
  rfl

end Revision
