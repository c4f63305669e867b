import Verif.Spec.WireIndexed
import Verif.Proofs.Wire
import Verif.Proofs.IndexedBuild
import Verif.Proofs.DeriveEnum

/-! Helper lemmas: the model's indexed writers produce the specified layouts. -/

namespace Revision

open Wire

theorem forms_iff {f : α → Res β} {l : List α} : ∀ {bs : List β},
    encEach f l = .ok bs ↔ Forms f l bs := by
  unfold Forms
  induction l with
  | nil => intro bs; cases bs <;> simp [encEach]
  | cons a l ih =>
    intro bs
    rw [encEach_cons]
    constructor
    · rintro ⟨b, bs', rfl, h1, h2⟩; simp [h1, ih.1 h2]
    · intro h
      cases bs with
      | nil => simp at h
      | cons b bs =>
        simp only [List.map_cons, List.cons.injEq] at h
        exact ⟨b, bs, rfl, h.1, ih.2 h.2⟩

theorem writeVarint_eq {n : Nat} (h : n < 2 ^ 64) : writeVarint n = varint n := by
  simp only [writeVarint, varint, leBytes_eq_le]
  repeat' split
  all_goals first | rfl | omega

theorem fieldOffsets_eq (off : Nat) (fs : List Bytes) :
    fieldOffsets off fs = (List.range fs.length).map fun i => off + start fs i := by
  refine List.ext_getElem (by simp [fieldOffsets_length]) ?_
  intro i h1 h2
  rw [fieldOffsets_get]; simp [start]

theorem starts_eq (off : Nat) (fs : List Bytes) :
    ((fieldOffsets off fs).map (leBytes 4)).flatten = starts off fs := by
  rw [fieldOffsets_eq, List.map_map, starts, List.flatMap]
  congr 1
  exact List.map_congr_left fun i _ => leBytes_eq_le _ _

theorem pairStarts_eq (ks vs : List Bytes) (n : Nat) (hk : ks.length = n) (hv : vs.length = n) :
    (((fieldOffsets 0 ks).zip (fieldOffsets 0 vs)).map fun o => leBytes 4 o.1 ++ leBytes 4 o.2).flatten =
      (List.range n).flatMap (fun i => le 4 (start ks i) ++ le 4 (start vs i)) := by
  rw [fieldOffsets_eq, fieldOffsets_eq, hk, hv, List.zip_map', List.map_map, List.flatMap]
  congr 1
  exact List.map_congr_left fun i _ => by simp [leBytes_eq_le]

theorem mem_flatten_length {x : Bytes} {l : List Bytes} (h : x ∈ l) : x.length ≤ l.flatten.length := by
  induction l with
  | nil => cases h
  | cons a l ih =>
    rw [List.flatten_cons, List.length_append]
    rcases List.mem_cons.1 h with rfl | h
    · omega
    · have := ih h; omega

theorem writeSeqBodies_eq {bs : List Bytes} (hn : bs.length < 2 ^ 64)
    (hs : 8 ≤ bs.length → bs.flatten.length < 2 ^ 32) : writeSeqBodies bs = .ok (indexedSeq bs) := by
  unfold writeSeqBodies indexedSeq
  simp only [offsetTableMinLen, writeVarint_eq hn]
  by_cases h : bs.length < 8
  · rw [if_pos h, if_pos h, List.append_assoc]; rfl
  · have hs := hs (by omega)
    rw [if_neg h, if_neg h,
      seqOffsets_small (fun b hb => Nat.lt_of_le_of_lt (mem_flatten_length hb) hs) 0 (by decide),
      if_pos (by omega), Res.ok_bind, starts_eq]
    simp only [List.append_assoc]; rfl

theorem writeMapPairs_eq {ps : List (Bytes × Bytes)} (hn : ps.length < 2 ^ 64)
    (hs : 8 ≤ ps.length → (ps.map Prod.fst).flatten.length < 2 ^ 32 ∧
      (ps.map Prod.snd).flatten.length < 2 ^ 32) : writeMapPairs ps = .ok (indexedMap ps) := by
  unfold writeMapPairs indexedMap
  simp only [offsetTableMinLen, writeVarint_eq hn]
  by_cases h : ps.length < 8
  · rw [if_pos h, if_pos h, List.append_assoc]; rfl
  · obtain ⟨h1, h2⟩ := hs (by omega)
    rw [if_neg h, if_neg h, mapOffsets_small (fun b hb =>
      ⟨Nat.lt_of_le_of_lt (mem_flatten_length (List.mem_map_of_mem hb)) h1,
       Nat.lt_of_le_of_lt (mem_flatten_length (List.mem_map_of_mem hb)) h2⟩) 0 0 (by decide) (by decide),
      if_pos (by omega), Res.ok_bind]
    simp only
    rw [pairStarts_eq _ _ ps.length (List.length_map ..) (List.length_map ..),
      leBytes_eq_le, leBytes_eq_le, Nat.zero_add, Nat.zero_add]
    simp only [List.append_assoc]; rfl

theorem indexedStructPayload_wire (fs : List Bytes) : indexedStructPayload fs = indexedStruct fs := by
  rw [indexedStructPayload, indexedStruct, starts_eq, Nat.mul_comm]

theorem encU16_eq {cfg : Cfg} {n : Nat} (h : n < 2 ^ 16) : encU16 cfg n = number cfg 2 n := by
  simp only [encU16, encInt, number, leBytes_eq_le, encodeU64_eq_varint]
  have e : (BitVec.ofNat 16 n).toNat = n := by rw [BitVec.toNat_ofNat, Nat.mod_eq_of_lt h]
  have e' : ((BitVec.ofNat 16 n).setWidth 64).toNat = n := by
    rw [BitVec.toNat_setWidth, e]; exact Nat.mod_eq_of_lt (by omega)
  simp only [e, e']

theorem structRecord_eq (cfg : Cfg) (h : List Entry) (hh : ValidHistory h) (bs : List Bytes) :
    encU16 cfg h.length ++ structLayout (lastEntry h) bs =
      structRecord cfg h.length (lastEntry h).optimised (lastEntry h).indexedStruct bs := by
  have := hh.fits
  rw [encU16_eq (by omega)]
  simp only [structLayout, structPayload, structRecord, offsetTable, indexedStruct, starts, start,
    leBytes_eq_le]

theorem enumRecord_eq (cfg : Cfg) (h : List Entry) (hh : ValidHistory h) (d : Nat) (hd : d < 2 ^ 32)
    (hd' : (lastEntry h).optimised = true → d < 32) (size : VariantSize) (bs : List Bytes) :
    encU16 cfg h.length ++ enumLayout cfg (lastEntry h) d size bs =
      enumRecord cfg h.length (lastEntry h).optimised d size bs := by
  have := hh.fits
  rw [encU16_eq (by omega)]
  unfold enumLayout enumRecord
  congr 1
  by_cases ho : (lastEntry h).optimised = true
  · rw [if_pos ho, if_pos ho]
    have hd := hd' ho
    have key : ∀ d : Fin 32, Tag.new (UInt8.ofNat d) .inline = UInt8.ofNat d ∧
      Tag.new (UInt8.ofNat d) .fixed = UInt8.ofNat (32 + d) ∧
      Tag.new (UInt8.ofNat d) .varlen = UInt8.ofNat (64 + d) := by decide
    obtain ⟨k1, k2, k3⟩ := key ⟨d, hd⟩
    simp only at k1 k2 k3
    cases size
    · simp only [sizedPayload, VariantSize.cls, k1]
    · simp only [sizedPayload, VariantSize.cls, k2]
    · simp only [sizedPayload, VariantSize.cls, k3, leBytes_eq_le]
  · rw [if_neg ho, if_neg ho, encU32_eq hd]

end Revision
