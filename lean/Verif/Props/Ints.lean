import Verif.Proofs.Ints
import Verif.Proofs.BytesOrd

/-! # Integer properties: C01-C04, C14, C61, C63 -/

namespace Revision

/-- **C01** (unsigned round trip).  For every feature combination, every unsigned integer type,
every value and every following bytes `t`: deserialising the serialised form followed by `t`
returns the value and leaves exactly `t`. -/
theorem C01_unsigned_round_trip (cfg : Cfg) (k : IntTy) (_hk : k.signed = false)
    (v : BitVec k.bits) (b : Bytes) (hb : (intC cfg k).enc v = .ok b) (t : Bytes) :
    (intC cfg k).dec (b ++ t) = .ok (v, t) :=
  (intC_lawful cfg k).round_trip v b trivial hb t

example : (intC ⟨false, true⟩ .u32).enc (70000 : BitVec 32) = .ok [252, 112, 17, 1, 0] := by
  decide
example : (intC ⟨false, true⟩ .u32).dec ([252, 112, 17, 1, 0] ++ [9]) = .ok ((70000 : BitVec 32), [9]) :=
  C01_unsigned_round_trip ⟨false, true⟩ .u32 rfl 70000 _ (by decide) [9]

/-- **C02** (signed round trip, value level): the same for the signed types. -/
theorem C02_signed_round_trip (cfg : Cfg) (k : IntTy) (_hk : k.signed = true)
    (v : BitVec k.bits) (b : Bytes) (hb : (intC cfg k).enc v = .ok b) (t : Bytes) :
    (intC cfg k).dec (b ++ t) = .ok (v, t) :=
  (intC_lawful cfg k).round_trip v b trivial hb t

/-- **C02** (small magnitudes): with the variable-length encoding, a signed integer
(16 bits or wider) in `-125 ..= 125` takes one byte, and one in `-2^15 ..= 2^15 - 1` at most three. -/
theorem C02_small_magnitude (cfg : Cfg) (hc : cfg.fixedWidth = false) (k : IntTy) (hk : k.IsVar)
    (hs : k.signed = true) (v : BitVec k.bits) :
    (-125 ≤ k.value v → k.value v ≤ 125 → (encInt cfg k v).length = 1) ∧
    (-(2 ^ 15) ≤ k.value v → k.value v < 2 ^ 15 → (encInt cfg k v).length ≤ 3) := by
  rw [encInt_length hc hk]
  simp only [IntTy.wireNat, hs, if_true, zigzagSpec, varintSize]
  constructor
  · intro h1 h2
    rw [if_pos]
    split <;> omega
  · intro h1 h2
    repeat' split
    all_goals omega

example : (intC ⟨false, true⟩ .i64).enc (BitVec.ofInt 64 (-3)) = .ok [5] := by decide
example : IntTy.value .i64 (BitVec.ofInt 64 (-3)) = -3 := by decide

/-- **C03** (exact size): with the variable-length encoding an integer takes
1 / 3 / 5 / 9 / 17 bytes according to the number written on the wire. -/
theorem C03_exact_size (cfg : Cfg) (hc : cfg.fixedWidth = false) (k : IntTy) (hk : k.IsVar)
    (v : BitVec k.bits) (b : Bytes) (hb : (intC cfg k).enc v = .ok b) :
    b.length = varintSize (k.wireNat (k.value v)) := by
  simp [intC, Codec.mirror] at hb
  rw [← hb]
  exact encInt_length hc hk v

/-- **C03** (minimality): no byte string the deserialiser accepts for `v` is shorter than
the one the serialiser writes. -/
theorem C03_minimal (cfg : Cfg) (k : IntTy) (v : BitVec k.bits) (b : Bytes)
    (hb : (intC cfg k).enc v = .ok b) (s r : Bytes) (hs : (intC cfg k).dec s = .ok (v, r)) :
    b.length + r.length ≤ s.length := by
  simp [intC, Codec.mirror] at hb hs
  subst hb
  by_cases hc : cfg.fixedWidth = false
  · by_cases hk : k.IsVar
    · obtain ⟨x, h1, -, h3, -⟩ := (decInt_ok_iff hc hk).1 hs
      rw [encInt_length hc hk, h3, wireNat_ofWire]
      exact decodeU128_min h1
    · have h8 : k = .u8 ∨ k = .i8 := by
        simp only [IntTy.IsVar] at hk; grind
      rcases h8 with rfl | rfl
      all_goals
        simp only [decInt, readLE, bind_pure_ok, IntTy.bits] at hs
        obtain ⟨a, h, -⟩ := hs
        simp only [Rd.readExact] at h
        split at h <;> simp at h
        simp only [encInt, leBytes_length]
        rw [← h.2]
        simp
        omega
  · have hc : cfg.fixedWidth = true := by simpa using hc
    cases k <;> simp only [decInt, hc, readLE, bind_pure_ok, if_true] at hs
    all_goals
      first
        | obtain ⟨a, h, -⟩ := hs
          simp only [Rd.readExact] at h
          split at h <;> simp at h
          simp only [encInt, hc, if_true, leBytes_length]
          rw [← h.2]
          simp
          omega
        | obtain ⟨_, ⟨a, h, -⟩, -⟩ := hs
          simp only [Rd.readExact] at h
          split at h <;> simp at h
          simp only [encInt, hc, if_true, leBytes_length]
          rw [← h.2]
          simp
          omega

example : (intC ⟨false, true⟩ .u64).dec [252, 7, 0, 0, 0] = .ok ((7 : BitVec 64), []) := by decide
example : IntTy.wireNat .i32 (IntTy.value .i32 (BitVec.ofInt 32 (-200))) = 399 := by decide

/-- **C04** (accepting): if a narrower variable-length integer type accepts some bytes, every wider
type of the same signedness accepts them too, stops at the same place, and reads the *same number*
(which is in the narrow type's range). -/
theorem C04_same_number (cfg : Cfg) (hc : cfg.fixedWidth = false) (k K : IntTy)
    (hk : k.IsVar) (hK : K.IsVar) (hs : k.signed = K.signed) (hb : k.bits ≤ K.bits)
    (s r : Bytes) (v : BitVec k.bits) (h : (intC cfg k).dec s = .ok (v, r)) :
    k.InRange (k.value v) ∧
      ∃ V : BitVec K.bits, (intC cfg K).dec s = .ok (V, r) ∧ K.value V = k.value v := by
  obtain ⟨x, h1, h2, h3, h4⟩ := (decInt_ok_iff hc hk).1 h
  refine ⟨by rw [h3]; exact (inRange_ofWire k.bits_pos).2 h2, ?_⟩
  have hw : k.ofWire x.toNat = K.ofWire x.toNat := by simp [IntTy.ofWire, hs]
  have hp : 2 ^ k.bits ≤ 2 ^ K.bits := Nat.pow_le_pow_right (by decide) hb
  -- the wide value
  obtain ⟨V, hV⟩ : ∃ V : BitVec K.bits, K.value V = K.ofWire x.toNat := by
    have hr := (inRange_ofWire K.bits_pos (k := K) (n := x.toNat)).2 (by omega)
    unfold IntTy.InRange at hr
    unfold IntTy.value
    cases hsK : K.signed
    · refine ⟨BitVec.ofNat _ x.toNat, ?_⟩
      simp only [IntTy.ofWire, hsK, Bool.false_eq_true, if_false, BitVec.toNat_ofNat]
      rw [Nat.mod_eq_of_lt (by omega)]
    · simp only [hsK, if_true] at hr
      exact ⟨BitVec.ofInt _ (K.ofWire x.toNat), BitVec.toInt_ofInt_eq_self K.bits_pos hr.1 hr.2⟩
  exact ⟨V, (decInt_ok_iff hc hK).2 ⟨x, h1, by omega, hV, fun h => h4 (by omega)⟩,
    by rw [hV, ← hw, h3]⟩

example : ∃ V : BitVec 64, (intC ⟨false, true⟩ .i64).dec [251, 87, 2, 9] = .ok (V, [9]) ∧
    IntTy.value .i64 V = IntTy.value .i16 (BitVec.ofInt 16 (-300)) :=
  (C04_same_number ⟨false, true⟩ rfl .i16 .i64 (by simp [IntTy.IsVar]) (by simp [IntTy.IsVar]) rfl (by decide)
    [251, 87, 2, 9] [9] (BitVec.ofInt 16 (-300)) (by decide)).2

/-- **C04** (rejecting): if the wider type reads a number outside the narrow type's range,
the narrow type reports `IntegerOverflow` on those bytes. -/
theorem C04_overflow (cfg : Cfg) (hc : cfg.fixedWidth = false) (k K : IntTy)
    (hk : k.IsVar) (hK : K.IsVar) (hs : k.signed = K.signed)
    (s r : Bytes) (V : BitVec K.bits) (h : (intC cfg K).dec s = .ok (V, r))
    (hout : ¬ k.InRange (K.value V)) :
    (intC cfg k).dec s = .err .integerOverflow := by
  obtain ⟨x, h1, h2, h3, h4⟩ := (decInt_ok_iff hc hK).1 h
  have hw : k.ofWire x.toNat = K.ofWire x.toNat := by simp [IntTy.ofWire, hs]
  rw [h3, ← hw, inRange_ofWire k.bits_pos] at hout
  exact decInt_overflow hc hk h1 (by omega)

example : (intC ⟨false, true⟩ .u16).dec [252, 112, 17, 1, 0, 9] = .err .integerOverflow :=
  C04_overflow ⟨false, true⟩ rfl .u16 .u64 (by simp [IntTy.IsVar]) (by simp [IntTy.IsVar]) rfl
    [252, 112, 17, 1, 0, 9] [9] 70000 (by decide)
    (by simp only [IntTy.InRange, IntTy.signed, IntTy.value, if_false, Bool.false_eq_true]; decide)

/-- **C04** (in-range values survive narrowing): what a wide type writes, a narrower type reads
back as the same number whenever it is in range, and refuses otherwise. -/
theorem C04_written_wide_read_narrow (cfg : Cfg) (hc : cfg.fixedWidth = false) (k K : IntTy)
    (hk : k.IsVar) (hK : K.IsVar) (hs : k.signed = K.signed)
    (V : BitVec K.bits) (b : Bytes) (hb : (intC cfg K).enc V = .ok b) (t : Bytes) :
    (k.InRange (K.value V) →
      ∃ v, (intC cfg k).dec (b ++ t) = .ok (v, t) ∧ k.value v = K.value V) ∧
    (¬ k.InRange (K.value V) → (intC cfg k).dec (b ++ t) = .err .integerOverflow) := by
  have hrt := (intC_lawful cfg K).round_trip V b trivial hb t
  constructor
  · intro hin
    obtain ⟨x, h1, h2, h3, h4⟩ := (decInt_ok_iff hc hK).1 hrt
    have hw : k.ofWire x.toNat = K.ofWire x.toNat := by simp [IntTy.ofWire, hs]
    rw [h3, ← hw] at hin
    have hlt := (inRange_ofWire k.bits_pos).1 hin
    -- encode the narrow value: it is the same byte string
    obtain ⟨v, hv⟩ : ∃ v : BitVec k.bits, k.value v = k.ofWire x.toNat := by
      unfold IntTy.InRange at hin
      unfold IntTy.value
      cases hsk : k.signed
      · refine ⟨BitVec.ofNat _ x.toNat, ?_⟩
        simp only [IntTy.ofWire, hsk, Bool.false_eq_true, if_false, BitVec.toNat_ofNat]
        rw [Nat.mod_eq_of_lt (by omega)]
      · simp only [hsk, if_true] at hin
        exact ⟨BitVec.ofInt _ (k.ofWire x.toNat), BitVec.toInt_ofInt_eq_self k.bits_pos hin.1 hin.2⟩
    refine ⟨v, (decInt_ok_iff hc hk).2 ⟨x, h1, hlt, hv, fun hb128 => ?_⟩, by rw [hv, hw, h3]⟩
    -- the tag is not 254 because the number is below 2^64
    have hbl : b.length = varintSize x.toNat := by
      simp [intC, Codec.mirror] at hb
      rw [← hb, encInt_length hc hK, h3, wireNat_ofWire]
    intro h254
    have h64 : x.toNat < 2 ^ 64 := by
      have : 2 ^ k.bits ≤ 2 ^ 64 := by
        apply Nat.pow_le_pow_right (by decide)
        revert hb128; cases k <;> simp [IntTy.bits]
      omega
    obtain ⟨c, t', hs', hcase⟩ := decodeU128_ok h1
    rw [hs'] at h254
    simp at h254
    subst h254
    have h16 : t'.length = 16 + t.length := by
      rcases hcase with h | h | h | h | h
      · exact absurd h.1 (by decide)
      · exact absurd h.1 (by decide)
      · exact absurd h.1 (by decide)
      · exact absurd h.1 (by decide)
      · exact h.2
    have := congrArg List.length hs'
    simp at this
    have h9 : varintSize x.toNat ≤ 9 := by
      unfold varintSize
      repeat' split
      all_goals omega
    omega
  · intro hout
    exact C04_overflow cfg hc k K hk hK hs _ _ V hrt hout

example : (intC ⟨false, true⟩ .u64).enc (70000 : BitVec 64) = .ok [252, 112, 17, 1, 0] := by decide
example : (intC ⟨false, true⟩ .u16).dec [252, 112, 17, 1, 0] = .err .integerOverflow := by decide
example : ¬ IntTy.InRange .u16 (IntTy.value .u64 (70000 : BitVec 64)) := by
  simp only [IntTy.InRange, IntTy.signed, IntTy.value, if_false, Bool.false_eq_true]; decide
example : IntTy.InRange .i16 (IntTy.value .i64 (BitVec.ofInt 64 (-300))) := by
  simp only [IntTy.InRange, IntTy.signed, IntTy.value]; decide

/-- **C14** (strict booleans): the exact behaviour of `bool` deserialisation on every input. -/
theorem C14_bool_strict (s : Bytes) :
    (∀ v r, boolC.dec s = .ok (v, r) ↔ s = (if v then 1 else 0) :: r) ∧
    (∀ c r, s = c :: r → c ≠ 0 → c ≠ 1 → boolC.dec s = .err (.invalidBool c)) ∧
    (s = [] → boolC.dec s = .err .io) := by
  refine ⟨?_, ?_, ?_⟩
  · intro v r
    cases s with
    | nil => simp [boolC, Codec.mirror, Rd.bind_run, Rd.readByte]
    | cons c t =>
      simp only [boolC, Codec.mirror, Rd.bind_of_ok (Rd.readByte_cons _ _)]
      by_cases h0 : c = 0
      · subst h0; cases v <;> simp
      · by_cases h1 : c = 1
        · subst h1; cases v <;> simp
        · simp [h0, h1]
          cases v <;> simp [h0, h1]
  · rintro c r rfl h0 h1
    simp [boolC, Codec.mirror, Rd.bind_of_ok (Rd.readByte_cons _ _), h0, h1]
  · rintro rfl; rfl

example : boolC.dec [2, 1] = .err (.invalidBool 2) := (C14_bool_strict _).2.1 2 _ rfl (by decide) (by decide)

/-- **C61** is false of the code: with `fixed-width-encoding` the encoding is little-endian, and
the serialised forms of 1 and 256 compare the other way round. -/
theorem C61_key_byte_order_false :
    ¬ ∀ (cfg : Cfg) (k : IntTy) (a b : BitVec k.bits), cfg.fixedWidth = true → k.signed = false →
      cmpBytes (encInt cfg k a) (encInt cfg k b) = compare a.toNat b.toNat := by
  intro h
  have := h ⟨true, true⟩ .u32 (1 : BitVec 32) (256 : BitVec 32) rfl rfl
  revert this
  decide

/-- **C61** (what does hold): single-byte keys are in byte order; for wider unsigned types under
`fixed-width-encoding` it is the *reversed* byte strings that compare as the integers do.
Missing: the documented claim for the byte strings themselves (false, see above). -/
theorem C61_key_byte_order_partial (cfg : Cfg) (hc : cfg.fixedWidth = true) (k : IntTy)
    (hs : k.signed = false) (a b : BitVec k.bits) :
    cmpBytes (encInt cfg k a).reverse (encInt cfg k b).reverse = compare a.toNat b.toNat := by
  have key : ∀ n x y : Nat, x < 256 ^ n → y < 256 ^ n →
      cmpBytes (leBytes n x).reverse (leBytes n y).reverse = compare x y := by
    intro n
    induction n with
    | zero => intro x y hx hy; simp at hx hy; subst hx hy; decide
    | succ n ih =>
      intro x y hx hy
      rw [Nat.pow_succ] at hx hy
      simp only [leBytes, List.reverse_cons]
      rw [cmpBytes_append (by simp), ih (x / 256) (y / 256) (by omega) (by omega)]
      by_cases hlt : x / 256 < y / 256
      · rw [Nat.compare_eq_lt.2 hlt, Nat.compare_eq_lt.2 (by omega)]; rfl
      · by_cases hgt : y / 256 < x / 256
        · rw [Nat.compare_eq_gt.2 hgt, Nat.compare_eq_gt.2 (by omega)]; rfl
        · rw [Nat.compare_eq_eq.2 (by omega)]
          simp only [Ordering.then]
          simp only [cmpBytes, UInt8.lt_iff_toNat_lt, UInt8.toNat_ofNat', Nat.mod_mod]
          split
          · rw [Nat.compare_eq_lt.2 (by omega)]
          · split
            · rw [Nat.compare_eq_gt.2 (by omega)]
            · rw [Nat.compare_eq_eq.2 (by omega)]
  have ha := a.isLt
  have hb := b.isLt
  cases k <;> simp [IntTy.signed] at hs <;> simp only [encInt, hc, if_true] <;>
    exact key _ _ _ (by rw [pow256]; exact ha) (by rw [pow256]; exact hb)

example : cmpBytes (encInt ⟨true, true⟩ .u32 (1 : BitVec 32)).reverse
    (encInt ⟨true, true⟩ .u32 (256 : BitVec 32)).reverse = .lt := by decide

/-- **C63** (per-field fixed encoding): for every supported width `n` (4, 8, 16 bytes; the statement
holds for all) and every value, whatever the feature flags: exactly `n` bytes, byte `i` being bits
`8 i .. 8 i + 7` of the two's complement pattern; decoding gives the value back and leaves what
follows; skip stops at the same place. -/
theorem C63_fixed_field (n : Nat) (v : BitVec (8 * n)) :
    ∃ b, (fixedC n).enc v = .ok b ∧ b.length = n ∧
      (∀ i (hi : i < b.length), (b[i]).toNat = (v.toNat / 256 ^ i) % 256) ∧
      ∀ t, (fixedC n).dec (b ++ t) = .ok (v, t) ∧ (fixedC n).skip (b ++ t) = .ok ((), t) := by
  refine ⟨_, rfl, leBytes_length _ _, ?_, ?_⟩
  · have : ∀ n x i (hi : i < (leBytes n x).length),
        ((leBytes n x)[i]).toNat = (x / 256 ^ i) % 256 := by
      intro n
      induction n with
      | zero => intro x i hi; simp [leBytes] at hi
      | succ n ih =>
        intro x i hi
        cases i with
        | zero => simp [leBytes]
        | succ i =>
          simp only [leBytes, List.getElem_cons_succ]
          rw [ih, Nat.div_div_eq_div_mul, Nat.pow_succ, Nat.mul_comm]
    intro i hi
    exact this n v.toNat i hi
  · intro t
    have h := (fixedC_lawful n).round_trip v _ trivial rfl t
    refine ⟨h, ?_⟩
    obtain ⟨x, hx⟩ := (fixedC_lawful n).skip_agree _ _ _ h
    exact hx

example : (fixedC 4).enc (BitVec.ofInt 32 (-2)) = .ok [254, 255, 255, 255] := by decide

end Revision
