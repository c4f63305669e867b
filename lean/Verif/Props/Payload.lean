import Verif.Proofs.Payload
import Verif.Proofs.DeriveEnum
import Verif.Props.Program
import Verif.Props.DeriveEnum

/-! C94: the buffers requested for the payloads of optimised structs and enums. -/

namespace Revision

section
variable {ι : Type} [DecidableEq ι]

/-- C94 with the payloads' buffers counted: an input that decodes at all decodes under every allocator that grants
buffers of as many elements or bytes as the input has bytes.
Missing for the full statement: inputs that do not decode (`C94_payload_false`, `C94_hostile_false`) and elements
that take no bytes (`C94_weightless_false`). -/
theorem C94_buffers_partial (cfg : Cfg) (P : Program ι) (I : Impls P.kind)
    (hP : ∀ i, ∀ t ∈ (P.body i).types, t.solid = true) (n : Nat) (i : ι) (s rest : Bytes)
    (hs : GrantsFor I.cap s.length) (v : Values P.kind n i)
    (h : (P.codec cfg I.unlimited n i).dec s = .ok (v, rest)) : (P.bufCodec cfg I n i).dec s = .ok (v, rest) :=
  (Program.bufCodec_upto (G := True) (L := s.length) cfg P I (fun _ => hs) (fun _ => hP) n i s (Nat.le_refl _)).2.2
    trivial v rest h

/-- C94 with the payloads' buffers counted: refused memory shows as a panic and in no other way. -/
theorem C94_buffers_refusal (cfg : Cfg) (P : Program ι) (I : Impls P.kind) (n : Nat) (i : ι)
    (s : Bytes) : (P.bufCodec cfg I n i).dec s = .panic ∨
      (P.bufCodec cfg I n i).dec s = (P.codec cfg I.unlimited n i).dec s :=
  (Program.bufCodec_upto (G := False) (L := s.length) cfg P I nofun nofun n i s (Nat.le_refl _)).1

/-- An allocator that grants what `L` bytes justify and nothing more. -/
def tightImpls (L : Nat) : Impls demoProgram.kind := { demoImpls with cap := fun t n => decide (n ≤ t.perByte * L) }

/-- A document of eleven bytes, its payload six of them, read with no more memory than that. -/
example : (∃ v, (demoProgram.bufCodec .default (tightImpls 11) 2 .doc).dec [1, 6, 0, 0, 0, 2, 104, 105, 0, 0, 0] =
      .ok (v, [])) ∧
    (demoProgram.bufCodec .default (tightImpls 5) 2 .doc).dec [1, 6, 0, 0, 0, 2, 104, 105, 0, 0, 0] = .panic := by
  constructor
  · obtain ⟨v, h⟩ : ∃ v, (demoProgram.codec .default (tightImpls 11).unlimited 2 .doc).dec
        [1, 6, 0, 0, 0, 2, 104, 105, 0, 0, 0] = .ok (v, []) := ⟨_, rfl⟩
    exact ⟨v, C94_buffers_partial .default demoProgram (tightImpls 11) (by intro i; cases i <;> decide) 2 .doc
      [1, 6, 0, 0, 0, 2, 104, 105, 0, 0, 0] [] (fun t n hn => decide_eq_true hn) v h⟩
  · rfl

/-- A payload said to be of 200 bytes: refused, or found missing. -/
example : (demoProgram.bufCodec .default (tightImpls 5) 2 .doc).dec [1, 200, 0, 0, 0] = .panic ∨
    (demoProgram.bufCodec .default (tightImpls 5) 2 .doc).dec [1, 200, 0, 0, 0] =
      (demoProgram.codec .default (tightImpls 5).unlimited 2 .doc).dec [1, 200, 0, 0, 0] :=
  C94_buffers_refusal _ _ _ _ _ _

theorem Body.bufCodec_eq {K : ι → Kind} (cfg : Cfg) (I : Impls K)
    (hI : ∀ n, n < 2 ^ 32 → I.cap (.int .u8) n = true) (n : Nat) (c : (i : ι) → Codec (Values K n i))
    (h : List Entry) : {k : Kind} → (b : Body K k) → b.ByteSizes → b.bufCodec cfg I n c h = b.codec cfg I n c h
  | _, .struct _, _ => structBufC_eq hI _ _
  | _, .enum vs, hb => enumBufC_eq hI _ _ fun v hv n hn => by
      obtain ⟨w, hw, rfl⟩ := List.mem_map.1 hv
      exact hb w hw n hn
  | _, .foreign _, _ => rfl

/-- Where the allocator grants byte buffers below 4 GiB the requests for the payloads are never refused, and the
program does what the model without them does: what is proved there holds with them. -/
theorem C94_buffers (cfg : Cfg) (P : Program ι) (I : Impls P.kind)
    (hI : ∀ n, n < 2 ^ 32 → I.cap (.int .u8) n = true) (hP : ∀ i, (P.body i).ByteSizes) :
    ∀ (n : Nat) (i : ι), P.bufCodec cfg I n i = P.codec cfg I n i
  | 0, _ => rfl
  | n + 1, i => by
    have ih : P.bufCodec cfg I n = P.codec cfg I n := funext fun j => C94_buffers cfg P I hI hP n j
    rw [Program.bufCodec, ih, Program.codec]
    exact Body.bufCodec_eq cfg I hI n _ _ _ (hP i)

/-- The demonstration's allocator grants up to a tebibyte. -/
example (n : Nat) (i : DemoType) : demoProgram.bufCodec .default demoImpls n i = demoProgram.codec .default demoImpls n i :=
  C94_buffers _ _ _ (fun n hn => decide_eq_true (by omega)) (fun i => by
    cases i with
    | tree => exact forall_mem_pair (fun _ h => nomatch h) (fun _ h => nomatch h)
    | doc => exact trivial) n i

end

section
variable {V : Type}

theorem readVarlenLen_max : readVarlenLen [255, 255, 255, 255] = .ok (2 ^ 32 - 1, []) := rfl

theorem readExact_nil {n : Nat} (h : n ≠ 0) : Rd.readExact n [] = .err .io := by
  cases n with
  | zero => exact absurd rfl h
  | succ n => rfl

theorem advance_nil {n : Nat} (h : n ≠ 0) : Rd.advance n [] = .err .io := by
  rw [Rd.advance_eq]
  exact Rd.bind_of_err (readExact_nil h)

/-- C94 is false of every optimised struct, whatever its fields: its revision and four bytes more make the decoder ask
for 4 GiB before it looks for the payload.  Where this is refused it panics; the input holds nothing to decode,
as skipping it, which asks for nothing, reports. -/
theorem C94_payload_false (cfg : Cfg) (cap : Nat → Bool) (hc : cap (2 ^ 32 - 1) = false) (h : List Entry)
    (hv : ValidHistory h) (e : Entry) (he : e ∈ h) (ho : e.optimised = true) (fs : List (FieldDecl V)) :
    (structBufC cfg cap h fs).dec (encU16 cfg e.revision ++ [255, 255, 255, 255]) = .panic ∧
    (structBufC cfg (fun _ => true) h fs).dec (encU16 cfg e.revision ++ [255, 255, 255, 255]) = .err .io ∧
    (structBufC cfg cap h fs).skip (encU16 cfg e.revision ++ [255, 255, 255, 255]) = .err .io := by
  obtain ⟨m, hm, h1⟩ : ∃ m, m = 2 ^ 32 - 1 ∧ readVarlenLen [255, 255, 255, 255] = .ok (m, []) := ⟨_, rfl, rfl⟩
  rw [← hm] at hc
  have h0 : m ≠ 0 := by omega
  refine ⟨?_, ?_, ?_⟩
  · refine (dispatch_hit cfg hv he _ _).trans ?_
    simp only [deserializeStructBodyBuf, ho, if_true]
    refine Rd.bind_of_panic ?_
    rw [readLengthPrefixedBuf, Rd.bind_of_ok h1, hc]
    rfl
  · refine (dispatch_hit cfg hv he _ _).trans ?_
    simp only [deserializeStructBodyBuf, ho, if_true]
    refine Rd.bind_of_err ?_
    rw [readLengthPrefixedBuf, Rd.bind_of_ok h1]
    exact readExact_nil h0
  · refine (dispatch_hit cfg hv he _ _).trans ?_
    simp only [skipStructBody, ho, if_true]
    rw [Rd.bind_of_ok h1]
    exact advance_nil h0

/-- The same of every optimised enum with a variant of varying length: the revision, that variant's tag and four
bytes. -/
theorem C94_payload_enum_false (cfg : Cfg) (cap : Nat → Bool) (hc : cap (2 ^ 32 - 1) = false) (h : List Entry)
    (hv : ValidHistory h) (e : Entry) (he : e ∈ h) (ho : e.optimised = true) (vs : List (VariantDecl V))
    (ha : AcceptedEnum e vs) (id : Nat) (v : VariantDecl V) (hm : (id, v) ∈ variantArms vs e.revision)
    (hs : v.opts.size = some .varlen) :
    (enumBufC cfg cap h vs).dec
      (encU16 cfg e.revision ++ [Tag.new (UInt8.ofNat id) .varlen, 255, 255, 255, 255]) = .panic ∧
    (enumBufC cfg (fun _ => true) h vs).dec
      (encU16 cfg e.revision ++ [Tag.new (UInt8.ofNat id) .varlen, 255, 255, 255, 255]) = .err .io ∧
    (enumBufC cfg cap h vs).skip
      (encU16 cfg e.revision ++ [Tag.new (UInt8.ofNat id) .varlen, 255, 255, 255, 255]) = .err .io := by
  obtain ⟨m, hlen, h1⟩ : ∃ m, m = 2 ^ 32 - 1 ∧ readVarlenLen [255, 255, 255, 255] = .ok (m, []) := ⟨_, rfl, rfl⟩
  rw [← hlen] at hc
  have h0 : m ≠ 0 := by omega
  have hid := ha.disc_lt_32 ho hm
  have hf := ha.find_tag ho hm
  have ht := readOptimisedTag_new hid .varlen [255, 255, 255, 255]
  have hcls : (v.opts.size.getD .inline).cls = .varlen := by rw [hs]; rfl
  simp only [hcls] at hf
  refine ⟨?_, ?_, ?_⟩
  · refine (dispatch_hit cfg hv he _ _).trans ?_
    simp only [deserializeEnumBodyBuf, ho, if_true]
    rw [Rd.bind_of_ok ht]
    simp only [tag_variantId_new hid, hf, decodeOptimisedVariantBuf, hs, Option.getD_some, readSizedBuf]
    refine Rd.bind_of_panic ?_
    rw [readLengthPrefixedBuf, Rd.bind_of_ok h1, hc]
    rfl
  · refine (dispatch_hit cfg hv he _ _).trans ?_
    simp only [deserializeEnumBodyBuf, ho, if_true]
    rw [Rd.bind_of_ok ht]
    simp only [tag_variantId_new hid, hf, decodeOptimisedVariantBuf, hs, Option.getD_some, readSizedBuf]
    refine Rd.bind_of_err ?_
    rw [readLengthPrefixedBuf, Rd.bind_of_ok h1]
    exact readExact_nil h0
  · refine (dispatch_hit cfg hv he _ _).trans ?_
    simp only [skipEnumBody, ho, if_true]
    rw [Rd.bind_of_ok ht]
    simp only []
    rw [Rd.bind_of_ok h1]
    exact advance_nil h0

/-- Five bytes to a demonstration struct and six to the demonstration enum, under an allocator that grants a gibibyte. -/
example : (structBufC .default (fun n => decide (n ≤ 2 ^ 30)) [⟨1, true, false⟩] ([] : List (FieldDecl DV))).dec
      [1, 255, 255, 255, 255] = .panic ∧
    (enumBufC .default (fun n => decide (n ≤ 2 ^ 30)) demoEnumHistory (demoVariants .default)).dec
      [3, 66, 255, 255, 255, 255] = .panic :=
  ⟨(C94_payload_false .default _ (decide_eq_false (by omega)) [⟨1, true, false⟩] ⟨by decide, by decide, by decide⟩
    ⟨1, true, false⟩ (.head _) rfl []).1,
  (C94_payload_enum_false .default _ (decide_eq_false (by omega)) demoEnumHistory demoEnum_history ⟨3, true, false⟩
    (.tail _ (.tail _ (.head _))) rfl (demoVariants .default) (demoEnum_accepted _ (.tail _ (.tail _ (.head _))))
    2 (demoVariants .default)[2] (mem_variantArms.2 ⟨.tail _ (.tail _ (.head _)), rfl, rfl⟩) rfl).1⟩

end

end Revision
