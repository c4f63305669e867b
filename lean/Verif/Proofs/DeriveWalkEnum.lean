import Verif.Spec.DeriveWalk
import Verif.Proofs.DeriveWalk
import Verif.Proofs.DeriveEnum

/-! Helper lemmas about the walkers of derived enums. -/

namespace Revision

variable {V : Type}

theorem variant_kept {h : List Entry} {vs : List (VariantDecl V)} (hv : VariantEndsConverted vs)
    {r : Nat} (hc : EnumNotConverted h vs r) (hle : r ≤ h.length) (hN : h.length < 2 ^ 64 - 1)
    {v : VariantDecl V} (hm : v ∈ vs) (ha : v.existsAt r = true) : v.existsAt h.length = true := by
  rcases hc with hc | rfl
  · have hcf : v.opts.convert = none := by
      unfold enumHasConvert at hc
      rw [List.any_eq_false] at hc
      have := hc v hm
      simp only [Bool.or_eq_true, not_or] at this
      simpa using this.1
    have hs : v.opts.stop = none := by
      cases hs : v.opts.stop with
      | none => rfl
      | some x => exact absurd hcf (hv v hm (by simp [hs]))
    unfold VariantDecl.existsAt Revision.existsAt at ha ⊢
    rw [hs] at ha ⊢
    simp only [Bool.and_eq_true, decide_eq_true_eq, Option.getD_none] at ha ⊢
    omega
  · exact ha

theorem walkEnum_direct (cfg : Cfg) {h : List Entry} (hh : ValidHistory h) {vs : List (VariantDecl V)}
    {e : Entry} (he : e ∈ h) (hc : EnumNotConverted h vs e.revision) {s t : Bytes}
    (hs : readU16 cfg s = .ok (e.revision, t)) :
    walkEnum cfg h vs s =
      (if e.optimised then walkOptimisedEnum vs e.revision
      else (do
        let d ← readU32 cfg
        pure (.wire e.revision d) : Rd EnumRepr)) t := by
  have h1 := hh.revision_le he
  unfold walkEnum
  rw [Rd.bind_of_ok hs, hh.latest_eq, if_neg (by omega)]
  have hg : (enumHasConvert vs && e.revision != h.length) = false := by
    rcases hc with hc | hc <;> simp [hc]
  simp only [hg, Bool.false_eq_true, if_false, hh.find_optimised he]
  by_cases ho : e.optimised
  · simp only [ho, if_true]
  · simp only [ho, Bool.false_eq_true, if_false]

theorem enum_dec_run (cfg : Cfg) {h : List Entry} (hh : ValidHistory h) {vs : List (VariantDecl V)}
    {e : Entry} (he : e ∈ h) {s t : Bytes} (hs : readU16 cfg s = .ok (e.revision, t)) :
    (enumC cfg h vs).dec s = deserializeEnumBody cfg e h.length vs t := by
  unfold enumC
  simp only [hh.latest_eq]
  unfold dispatchRevision
  rw [Rd.bind_of_ok hs]
  simp only [hh.find he]

/-- Bytes that deserialise at a legacy entry: the discriminant, and the variant it selects. -/
theorem legacy_dec_inv {cfg : Cfg} {e : Entry} (ho : e.optimised = false) {tgt : Nat}
    {vs : List (VariantDecl V)} {t r : Bytes} {x : EnumVal V}
    (hd : deserializeEnumBody cfg e tgt vs t = .ok (x, r)) :
    ∃ d v t1, readU32 cfg t = .ok (d, t1) ∧ (d, v) ∈ variantArms vs e.revision ∧
      decodeLegacyVariant e tgt v t1 = .ok (x, r) := by
  unfold deserializeEnumBody at hd
  simp only [ho, Bool.false_eq_true, if_false] at hd
  obtain ⟨d, t1, h1, hd⟩ := Rd.bind_ok.1 hd
  split at hd
  · rename_i a ha
    obtain ⟨d', v⟩ := a
    have := List.find?_some ha
    simp only [beq_iff_eq] at this
    subst this
    exact ⟨_, v, t1, h1, List.mem_of_find?_eq_some ha, hd⟩
  · cases hd

/-- Bytes that deserialise at an optimised entry: the tag, the variant it selects, and its payload. -/
theorem optimised_dec_inv {cfg : Cfg} {e : Entry} (ho : e.optimised = true) {tgt : Nat}
    {vs : List (VariantDecl V)} {t r : Bytes} {x : EnumVal V}
    (hd : deserializeEnumBody cfg e tgt vs t = .ok (x, r)) :
    ∃ tag d v t1, readOptimisedTag t = .ok ((tag, (v.opts.size.getD .inline).cls), t1) ∧
      tag.variantId = UInt8.ofNat d ∧ (d, v) ∈ variantArms vs e.revision ∧
      decodeOptimisedVariant e tgt v t1 = .ok (x, r) := by
  unfold deserializeEnumBody at hd
  simp only [ho, if_true] at hd
  obtain ⟨⟨tag, sc⟩, t1, h1, hd⟩ := Rd.bind_ok.1 hd
  simp only at hd
  split at hd
  · rename_i a ha
    obtain ⟨d, v⟩ := a
    have := List.find?_some ha
    simp only [Bool.and_eq_true, beq_iff_eq] at this
    refine ⟨tag, d, v, t1, ?_, this.1.symm, List.mem_of_find?_eq_some ha, hd⟩
    rw [this.2]; exact h1
  · cases hd

theorem legacyVariant_ident {e : Entry} {tgt : Nat} {v : VariantDecl V} (ha : v.existsAt tgt = true)
    {t r : Bytes} {x : EnumVal V} (h : decodeLegacyVariant e tgt v t = .ok (x, r)) : x.variant = v.ident := by
  unfold decodeLegacyVariant at h
  obtain ⟨fields, t1, _, h⟩ := Rd.bind_ok.1 h
  rw [if_pos ha] at h
  cases h
  rfl

theorem optimisedVariant_ident {e : Entry} {tgt : Nat} {v : VariantDecl V} (ha : v.existsAt tgt = true)
    {t r : Bytes} {x : EnumVal V} (h : decodeOptimisedVariant e tgt v t = .ok (x, r)) : x.variant = v.ident := by
  unfold decodeOptimisedVariant at h
  obtain ⟨body, t1, _, h⟩ := Rd.bind_ok.1 h
  obtain ⟨fields, t2, _, h⟩ := Rd.bind_ok.1 h
  rw [if_pos ha] at h
  cases h
  rfl

theorem readBorrowed_of_readExact {n : Nat} {s b r : Bytes} (h : Rd.readExact n s = .ok (b, r)) :
    readBorrowed n s = .ok (b, r) := by
  unfold Rd.readExact at h
  simp only at h
  split at h
  · cases h
    rename_i hl
    simp only [readBorrowed, Rd.bind_run, Rd.peek, Rd.advance, hl, if_true]
    rfl
  · cases h

/-- Walking the payload of an optimised variant. -/
theorem walkOptimised_run {e : Entry} (ho : e.optimised = true) {vs : List (VariantDecl V)}
    (hA : AcceptedEnum e vs) {tag : Tag} {d : Nat} {v : VariantDecl V} {t t1 r body : Bytes}
    (ht : readOptimisedTag t = .ok ((tag, (v.opts.size.getD .inline).cls), t1))
    (hid : tag.variantId = UInt8.ofNat d) (ha : (d, v) ∈ variantArms vs e.revision)
    (hb : readSized (v.opts.size.getD .inline) t1 = .ok (body, r)) :
    walkOptimisedEnum vs e.revision t = .ok (.borrowed body d, r) := by
  have hd := hA.disc_lt_32 ho ha
  simp only at hd
  have hidn : tag.variantId.toNat = d := by
    rw [hid, UInt8.toNat_ofNat', Nat.mod_eq_of_lt (by omega)]
  unfold walkOptimisedEnum
  rw [Rd.bind_of_ok ht]
  have htab : walkTable vs e.revision d = some (v.opts.size.getD .inline) := by
    unfold walkTable
    rw [findRev?_unique (a := (d, v)) ha (by simp) fun b hb hp => hA.arm_disc hb ha (by simpa using hp)]
  simp only [hidn, htab]
  simp only [bne_self_eq_false, Bool.false_eq_true, if_false]
  have : (match v.opts.size.getD .inline with
      | .inline => pure []
      | .fixed n => readBorrowed n
      | .varlen => do
        let len ← readVarlenLen
        readBorrowed len : Rd Bytes) t1 = .ok (body, r) := by
    cases hs : v.opts.size.getD .inline with
    | inline => rw [hs] at hb; exact hb
    | fixed n => rw [hs] at hb; exact readBorrowed_of_readExact hb
    | varlen =>
      rw [hs] at hb
      obtain ⟨n, t2, h1, h2⟩ := Rd.bind_ok.1 hb
      exact Rd.bind_ok.2 ⟨n, t2, h1, readBorrowed_of_readExact h2⟩
  exact Rd.bind_ok.2 ⟨body, r, this, rfl⟩

theorem discAt_of_arm {e : Entry} {vs : List (VariantDecl V)} (hA : AcceptedEnum e vs) {d : Nat}
    {v : VariantDecl V} (ha : (d, v) ∈ variantArms vs e.revision) : v.discAt vs e.revision d :=
  ⟨_, hA.discsAt, (mem_variantArms.1 ha).2.2⟩

theorem lookup_of_discAt {vs : List (VariantDecl V)} {r d : Nat} {v : VariantDecl V} (h : v.discAt vs r d) :
    (discsAt vs r).lookup v.ident = some d := by
  obtain ⟨D, hD, hl⟩ := h
  unfold discsAt
  rw [hD]
  exact hl

/-! ### Variants with one field -/

theorem decodePairs_filter (live removed : FieldDecl V → Rd V) (cur tgt : Nat) : ∀ (fs : List (FieldDecl V)),
    decodePairs live removed cur tgt fs =
      decodePairs live removed cur tgt (fs.filter fun f => f.existsAt cur || f.existsAt tgt)
  | [] => rfl
  | f :: fs => by
    by_cases h : (f.existsAt cur || f.existsAt tgt) = true
    · rw [List.filter_cons_of_pos (by simpa using h)]
      simp only [decodePairs]
      rw [decodePairs_filter live removed cur tgt fs]
    · rw [List.filter_cons_of_neg (by simpa using h)]
      simp only [decodePairs]
      rw [if_neg h, decodePairs_filter live removed cur tgt fs]

theorem decodeStructBody_single {live removed : FieldDecl V → Rd V} {cur tgt : Nat} {fs : List (FieldDecl V)}
    {f : FieldDecl V} (hn : DistinctNames fs cur tgt) (hk : NoneRemoved fs cur tgt)
    (ht : aliveFields fs tgt = [f]) (hf : f.existsAt cur = true) :
    decodeStructBody live removed cur tgt fs = (do let y ← live f; pure [y]) := by
  rw [decodeStructBody_kept live removed cur tgt fs hn hk, decodePairs_filter]
  have : (fs.filter fun f => f.existsAt cur || f.existsAt tgt) = [f] := by
    rw [← ht]
    refine List.filter_congr fun g hg => ?_
    cases hc : g.existsAt cur with
    | false => simp
    | true => simp [hk g hg hc]
  rw [this]
  have hft : f.existsAt tgt = true := (List.mem_filter.1 (ht ▸ List.mem_singleton_self f : f ∈ aliveFields fs tgt)).2
  simp [decodePairs, hf, hft, Rd.bind_assoc]

theorem decodeAlive_filter (r : Nat) : ∀ (fs : List (FieldDecl V)),
    decodeAlive r fs = decodeAlive r (aliveFields fs r)
  | [] => rfl
  | f :: fs => by
    unfold aliveFields
    have ih := decodeAlive_filter r fs
    unfold aliveFields at ih
    by_cases h : f.existsAt r = true
    · rw [List.filter_cons_of_pos (by simpa using h)]
      simp only [decodeAlive]
      rw [ih]
    · rw [List.filter_cons_of_neg (by simpa using h)]
      simp only [decodeAlive]
      rw [if_neg h, ih]

theorem decodeAlive_single {r : Nat} {fs : List (FieldDecl V)} {f : FieldDecl V} (h : aliveFields fs r = [f]) :
    decodeAlive r fs = (do let y ← f.plain.dec; pure [y]) := by
  rw [decodeAlive_filter, h]
  have hft : f.existsAt r = true := (List.mem_filter.1 (h ▸ List.mem_singleton_self f : f ∈ aliveFields fs r)).2
  simp [decodeAlive, hft]

end Revision
