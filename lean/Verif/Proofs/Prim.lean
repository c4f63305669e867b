import Verif.Model.Prim
import Verif.Spec.Ints
import Verif.Proofs.Rd

/-! Helper lemmas: little-endian bytes, zigzag, integer codecs. -/

namespace Revision

/-! ### Little-endian bytes -/

@[simp] theorem leBytes_length (n v : Nat) : (leBytes n v).length = n := by
  induction n generalizing v with
  | zero => rfl
  | succ n ih => simp [leBytes, ih]

theorem leVal_leBytes (n v : Nat) : leVal (leBytes n v) = v % 256 ^ n := by
  induction n generalizing v with
  | zero => simp [leBytes, leVal, Nat.mod_one]
  | succ n ih =>
    simp only [leBytes, leVal, ih]
    rw [Nat.pow_succ, Nat.mul_comm (256 ^ n) 256, Nat.mod_mul]
    simp

theorem leVal_lt (b : Bytes) : leVal b < 256 ^ b.length := by
  induction b with
  | nil => simp [leVal]
  | cons x b ih =>
    simp only [leVal, List.length_cons, Nat.pow_succ]
    have := x.toNat_lt
    omega

theorem leBytes_leVal (b : Bytes) : leBytes b.length (leVal b) = b := by
  induction b with
  | nil => rfl
  | cons x b ih =>
    have hx := x.toNat_lt
    simp only [leVal, List.length_cons, leBytes]
    have h1 : (x.toNat + 256 * leVal b) % 256 = x.toNat := by omega
    have h2 : (x.toNat + 256 * leVal b) / 256 = leVal b := by omega
    rw [h1, h2, ih]
    simp

theorem leBytes_mod (n v : Nat) : leBytes n (v % 256 ^ n) = leBytes n v := by
  have := leBytes_leVal (leBytes n v)
  rw [leBytes_length, leVal_leBytes] at this
  exact this

theorem pow256 (n : Nat) : 256 ^ n = 2 ^ (8 * n) := by
  rw [Nat.pow_mul]

theorem leBytes_inj {n v w : Nat} (hv : v < 256 ^ n) (hw : w < 256 ^ n)
    (h : leBytes n v = leBytes n w) : v = w := by
  have := congrArg leVal h
  rwa [leVal_leBytes, leVal_leBytes, Nat.mod_eq_of_lt hv, Nat.mod_eq_of_lt hw] at this

/-! ### Zigzag -/

theorem sshiftRight_msb_false {w : Nat} (v : BitVec w) (h : v.msb = false) :
    v.sshiftRight (w - 1) = 0#w := by
  apply BitVec.eq_of_toNat_eq
  rw [BitVec.sshiftRight_eq_of_msb_false h]
  simp [Nat.shiftRight_eq_div_pow]
  by_cases hw : w = 0
  · subst hw; simp [BitVec.of_length_zero]
  · have := BitVec.toNat_lt_of_msb_false h
    simpa using this

theorem sshiftRight_msb_true {w : Nat} (v : BitVec w) (h : v.msb = true) :
    v.sshiftRight (w - 1) = BitVec.allOnes w := by
  rw [BitVec.sshiftRight_eq_of_msb_true h]
  have hw : 0 < w := by
    rcases Nat.eq_zero_or_pos w with rfl | h'
    · simp [BitVec.of_length_zero] at h
    · exact h'
  have h2 := BitVec.toNat_ge_of_msb_true h
  have : (~~~v) >>> (w - 1) = 0#w := by
    apply BitVec.eq_of_toNat_eq
    simp [Nat.shiftRight_eq_div_pow]
    have h3 : 2 ^ w = 2 * 2 ^ (w - 1) := by
      rw [← Nat.pow_succ']; congr 1; omega
    omega
  rw [this]
  simp

theorem two_pow_pred {w : Nat} (hw : 0 < w) : 2 ^ w = 2 * 2 ^ (w - 1) := by
  rw [← Nat.pow_succ']; congr 1; omega

theorem zigzag_toNat {w : Nat} (hw : 0 < w) (v : BitVec w) :
    (zigzag v).toNat = zigzagSpec v.toInt := by
  have hp := two_pow_pred hw
  have hlt := v.isLt
  unfold zigzag zigzagSpec
  cases h : v.msb with
  | false =>
    have h2 := BitVec.toNat_lt_of_msb_false h
    rw [sshiftRight_msb_false v h, BitVec.toInt_eq_toNat_of_msb h]
    rw [if_pos (by omega)]
    rw [BitVec.zero_xor, BitVec.toNat_shiftLeft, Nat.shiftLeft_eq, Nat.mod_eq_of_lt (by omega)]
    omega
  | true =>
    have h2 := BitVec.toNat_ge_of_msb_true h
    rw [sshiftRight_msb_true v h]
    have h3 : v.toInt = (v.toNat : Int) - 2 ^ w := by
      rw [BitVec.toInt_eq_msb_cond, h]; simp
    rw [h3]
    rw [if_neg (by have : ((2 ^ w : Nat) : Int) = 2 ^ w := by push_cast; rfl
                   omega)]
    have h4 : ((2 ^ w : Nat) : Int) = 2 ^ w := by push_cast; rfl
    rw [BitVec.allOnes_xor]
    rw [BitVec.toNat_not, BitVec.toNat_shiftLeft, Nat.shiftLeft_eq]
    have h5 : v.toNat * 2 ^ 1 % 2 ^ w = 2 * v.toNat - 2 ^ w := by
      rw [Nat.mod_eq_sub_mod (by omega), Nat.mod_eq_of_lt (by omega)]
      omega
    rw [h5]
    omega

theorem gazgizSpec_zigzagSpec (i : Int) : gazgizSpec (zigzagSpec i) = i := by
  unfold gazgizSpec zigzagSpec
  split <;> split <;> omega

theorem zigzagSpec_gazgizSpec (n : Nat) : zigzagSpec (gazgizSpec n) = n := by
  unfold gazgizSpec zigzagSpec
  split <;> split <;> omega

theorem and_one_toNat {w : Nat} (hw : 0 < w) (v : BitVec w) :
    (v &&& 1#w).toNat = v.toNat % 2 := by
  have h1 : 1 < 2 ^ w := by
    have := two_pow_pred hw; have := Nat.two_pow_pos (w - 1); omega
  rw [BitVec.toNat_and, BitVec.toNat_ofNat, Nat.mod_eq_of_lt h1, Nat.and_one_is_mod]

theorem gazgiz_toInt {w : Nat} (hw : 0 < w) (v : BitVec w) :
    (gazgiz v).toInt = gazgizSpec v.toNat := by
  have hp := two_pow_pred hw
  have hlt := v.isLt
  have hpos := Nat.two_pow_pos (w - 1)
  have h4 : ((2 ^ w : Nat) : Int) = 2 ^ w := by push_cast; rfl
  unfold gazgiz gazgizSpec
  have h1 := and_one_toNat hw v
  by_cases h : v.toNat % 2 = 0
  · rw [if_pos h]
    have : (v &&& 1#w) = 0#w := BitVec.eq_of_toNat_eq (by rw [h1, h]; simp)
    rw [this]
    simp only [BitVec.neg_zero, BitVec.xor_zero]
    rw [BitVec.toInt_eq_toNat_of_lt]
    · simp [BitVec.toNat_ushiftRight, Nat.shiftRight_eq_div_pow]
    · simp [BitVec.toNat_ushiftRight, Nat.shiftRight_eq_div_pow]; omega
  · rw [if_neg h]
    have h0 : 1 % 2 ^ w = 1 := Nat.mod_eq_of_lt (by omega)
    have : (v &&& 1#w) = 1#w := BitVec.eq_of_toNat_eq (by
      rw [h1, BitVec.toNat_ofNat, h0]; omega)
    rw [this, BitVec.neg_one_eq_allOnes, BitVec.xor_allOnes]
    have hN : (~~~(v >>> 1)).toNat = 2 ^ w - 1 - v.toNat / 2 := by
      rw [BitVec.toNat_not, BitVec.toNat_ushiftRight, Nat.shiftRight_eq_div_pow]
    rw [BitVec.toInt_eq_toNat_cond, hN, if_neg (by omega)]
    omega

theorem gazgiz_zigzag {w : Nat} (hw : 0 < w) (v : BitVec w) : gazgiz (zigzag v) = v := by
  apply BitVec.eq_of_toInt_eq
  rw [gazgiz_toInt hw, zigzag_toNat hw, gazgizSpec_zigzagSpec]

theorem zigzag_gazgiz {w : Nat} (hw : 0 < w) (v : BitVec w) : zigzag (gazgiz v) = v := by
  apply BitVec.eq_of_toNat_eq
  rw [zigzag_toNat hw, gazgiz_toInt hw, zigzagSpec_gazgizSpec]

/-! ### Readers of integers -/

theorem readLE_append {w n : Nat} (u t : Bytes) (h : u.length = n) :
    readLE w n (u ++ t) = .ok (BitVec.ofNat w (leVal u), t) := by
  rw [readLE, Rd.bind_of_ok (Rd.readExact_append u t n h)]; rfl

theorem readLE_leBytes {w n : Nat} (v : Nat) (t : Bytes) :
    readLE w n (leBytes n v ++ t) = .ok (BitVec.ofNat w (v % 256 ^ n), t) := by
  rw [readLE_append _ _ (leBytes_length n v), leVal_leBytes]

theorem readLE_framed (w n : Nat) : (readLE w n).Framed :=
  Rd.Framed.bind (Rd.Framed.readExact n) fun _ => Rd.Framed.pure _

theorem readLE_noPanic (w n : Nat) : (readLE w n).NoPanic :=
  Rd.NoPanic.bind (Rd.NoPanic.readExact n) fun _ => Rd.NoPanic.pure _

theorem decodeU64_framed : decodeU64.Framed := by
  refine Rd.Framed.bind Rd.Framed.readByte fun b => ?_
  repeat' first
    | apply Rd.Framed.ite | apply readLE_framed | apply Rd.Framed.fail | apply Rd.Framed.pure

theorem decodeU64_noPanic : decodeU64.NoPanic := by
  refine Rd.NoPanic.bind Rd.NoPanic.readByte fun b => ?_
  repeat' first
    | apply Rd.NoPanic.ite | apply readLE_noPanic | apply Rd.NoPanic.fail | apply Rd.NoPanic.pure

theorem decodeU128_framed : decodeU128.Framed := by
  refine Rd.Framed.bind Rd.Framed.readByte fun b => ?_
  repeat' first
    | apply Rd.Framed.ite | apply readLE_framed | apply Rd.Framed.fail | apply Rd.Framed.pure

theorem decodeU128_noPanic : decodeU128.NoPanic := by
  refine Rd.NoPanic.bind Rd.NoPanic.readByte fun b => ?_
  repeat' first
    | apply Rd.NoPanic.ite | apply readLE_noPanic | apply Rd.NoPanic.fail | apply Rd.NoPanic.pure

theorem ofNat_ne {n k : Nat} (h : n < 251) (hk : 251 ≤ k) (hk' : k < 256) :
    UInt8.ofNat n ≠ UInt8.ofNat k := by
  intro he
  have := congrArg UInt8.toNat he
  simp at this
  omega

theorem decode_small {α} {n : Nat} (h : n < 251) (t : Bytes) (a b c d e : Rd α) (f : UInt8 → Rd α) :
    (Rd.readByte >>= fun x => if x = 251 then a else if x = 252 then b else if x = 253 then c
      else if x = 254 then d else if x = 255 then e else f x) (UInt8.ofNat n :: t)
      = f (UInt8.ofNat n) t := by
  rw [Rd.bind_of_ok (Rd.readByte_cons _ _)]
  have h1 : UInt8.ofNat n ≠ 251 := ofNat_ne (k := 251) h (by decide) (by decide)
  have h2 : UInt8.ofNat n ≠ 252 := ofNat_ne (k := 252) h (by decide) (by decide)
  have h3 : UInt8.ofNat n ≠ 253 := ofNat_ne (k := 253) h (by decide) (by decide)
  have h4 : UInt8.ofNat n ≠ 254 := ofNat_ne (k := 254) h (by decide) (by decide)
  have h5 : UInt8.ofNat n ≠ 255 := ofNat_ne (k := 255) h (by decide) (by decide)
  rw [if_neg h1, if_neg h2, if_neg h3, if_neg h4, if_neg h5]

theorem decodeU64_encodeU64 (v : BitVec 64) (t : Bytes) :
    decodeU64 (encodeU64 v ++ t) = .ok (v, t) := by
  unfold encodeU64
  have hv := v.isLt
  split
  · rename_i h
    rw [List.singleton_append]
    unfold decodeU64
    rw [decode_small h]
    simp
    apply BitVec.eq_of_toNat_eq
    simp; omega
  split
  · rw [List.cons_append, decodeU64, Rd.bind_of_ok (Rd.readByte_cons _ _), if_pos rfl,
      readLE_leBytes, Nat.mod_eq_of_lt (by omega)]
    simp
  split
  · rw [List.cons_append, decodeU64, Rd.bind_of_ok (Rd.readByte_cons _ _), if_neg (by decide),
      if_pos rfl, readLE_leBytes, Nat.mod_eq_of_lt (by omega)]
    simp
  · rw [List.cons_append, decodeU64, Rd.bind_of_ok (Rd.readByte_cons _ _), if_neg (by decide),
      if_neg (by decide), if_pos rfl, readLE_leBytes, Nat.mod_eq_of_lt (by omega)]
    simp

theorem decodeU128_encodeU128 (v : BitVec 128) (t : Bytes) :
    decodeU128 (encodeU128 v ++ t) = .ok (v, t) := by
  unfold encodeU128
  have hv := v.isLt
  split
  · rename_i h
    rw [List.singleton_append]
    unfold decodeU128
    rw [decode_small h]
    simp
    apply BitVec.eq_of_toNat_eq
    simp; omega
  split
  · rw [List.cons_append, decodeU128, Rd.bind_of_ok (Rd.readByte_cons _ _), if_pos rfl,
      readLE_leBytes, Nat.mod_eq_of_lt (by omega)]
    simp
  split
  · rw [List.cons_append, decodeU128, Rd.bind_of_ok (Rd.readByte_cons _ _), if_neg (by decide),
      if_pos rfl, readLE_leBytes, Nat.mod_eq_of_lt (by omega)]
    simp
  split
  · rw [List.cons_append, decodeU128, Rd.bind_of_ok (Rd.readByte_cons _ _), if_neg (by decide),
      if_neg (by decide), if_pos rfl, readLE_leBytes, Nat.mod_eq_of_lt (by omega)]
    simp
  · rw [List.cons_append, decodeU128, Rd.bind_of_ok (Rd.readByte_cons _ _), if_neg (by decide),
      if_neg (by decide), if_neg (by decide), if_pos rfl, readLE_leBytes,
      Nat.mod_eq_of_lt (by omega)]
    simp

theorem tryIntoU_setWidth {w : Nat} (hw : w ≤ 64) (v : BitVec w) :
    tryIntoU w (v.setWidth 64) = .ok v := by
  have hv := v.isLt
  have : 2 ^ w ≤ 2 ^ 64 := Nat.pow_le_pow_right (by decide) hw
  have h1 : (v.setWidth 64).toNat = v.toNat := by
    rw [BitVec.toNat_setWidth, Nat.mod_eq_of_lt (by omega)]
  rw [tryIntoU, if_pos (by rw [h1]; exact hv)]
  congr 1
  apply BitVec.eq_of_toNat_eq
  rw [BitVec.toNat_setWidth, h1, Nat.mod_eq_of_lt hv]

theorem signExtend_toInt {w : Nat} (hw : w ≤ 64) (v : BitVec w) :
    (v.signExtend 64).toInt = v.toInt := BitVec.toInt_signExtend_of_le hw

theorem tryIntoI_signExtend {w : Nat} (hw : w ≤ 64) (h0 : 0 < w) (v : BitVec w) :
    tryIntoI w (v.signExtend 64) = .ok v := by
  have h1 := signExtend_toInt hw v
  have h2 := BitVec.le_toInt v
  have h3 := BitVec.toInt_lt (x := v)
  rw [tryIntoI, if_pos (by rw [h1]; exact ⟨h2, h3⟩)]
  congr 1
  apply BitVec.eq_of_getLsbD_eq
  intro i hi
  rw [BitVec.getLsbD_setWidth, BitVec.getLsbD_signExtend]
  simp [hi, show i < 64 by omega]

theorem zigzag_signExtend_lt {w : Nat} (hw : w ≤ 64) (h0 : 0 < w) (v : BitVec w) :
    (zigzag (v.signExtend 64)).toNat < 2 ^ w := by
  have h1 := signExtend_toInt hw v
  have h2 := BitVec.le_toInt v
  have h3 := BitVec.toInt_lt (x := v)
  have hp := two_pow_pred h0
  have h4 : ((2 ^ (w - 1) : Nat) : Int) = 2 ^ (w - 1) := by push_cast; rfl
  rw [zigzag_toNat (by decide), h1, zigzagSpec]
  split <;> omega

theorem ofNat_toNat_mod {w n : Nat} (v : BitVec w) (h : w ≤ 8 * n) :
    BitVec.ofNat w (v.toNat % 256 ^ n) = v := by
  rw [pow256, Nat.mod_eq_of_lt]
  · simp
  · exact Nat.lt_of_lt_of_le v.isLt (Nat.pow_le_pow_right (by decide) h)

theorem setWidth_signExtend {w : Nat} (hw : w ≤ 64) (v : BitVec w) :
    (v.signExtend 64).setWidth w = v := by
  apply BitVec.eq_of_getLsbD_eq
  intro i hi
  rw [BitVec.getLsbD_setWidth, BitVec.getLsbD_signExtend]
  simp [hi, show i < 64 by omega]

theorem dec_enc_small_fixed {w n : Nat} (hw : w = 8 * n) (hw' : w ≤ 64) (h0 : 0 < w) (v : BitVec w)
    (t : Bytes) :
    (do let x ← readLE 64 n; pure ((gazgiz x).setWidth w) : Rd (BitVec w))
      (leBytes n (zigzag (v.signExtend 64)).toNat ++ t) = .ok (v, t) := by
  have := zigzag_signExtend_lt hw' h0 v
  rw [Rd.bind_of_ok (readLE_leBytes _ _), pow256, ← hw, Nat.mod_eq_of_lt this]
  simp [gazgiz_zigzag (show 0 < 64 by decide), setWidth_signExtend hw']

/-- Decoding an encoded integer gives it back and consumes exactly its bytes. -/
theorem decInt_encInt (cfg : Cfg) (k : IntTy) (v : BitVec k.bits) (t : Bytes) :
    decInt cfg k (encInt cfg k v ++ t) = .ok (v, t) := by
  have z64 : ∀ v : BitVec 64, gazgiz (zigzag v) = v := gazgiz_zigzag (by decide)
  have z128 : ∀ v : BitVec 128, gazgiz (zigzag v) = v := gazgiz_zigzag (by decide)
  cases k <;> simp only [encInt, decInt, IntTy.bits] at v ⊢
  case u8 => rw [readLE_leBytes, ofNat_toNat_mod v (by decide)]
  case i8 => rw [readLE_leBytes, ofNat_toNat_mod v (by decide)]
  all_goals cases cfg.fixedWidth <;> simp only [if_true, if_false, Bool.false_eq_true]
  case u16.true => rw [readLE_leBytes, ofNat_toNat_mod v (by decide)]
  case u32.true => rw [readLE_leBytes, ofNat_toNat_mod v (by decide)]
  case u64.true => rw [readLE_leBytes, ofNat_toNat_mod v (by decide)]
  case usize.true => rw [readLE_leBytes, ofNat_toNat_mod v (by decide)]
  case u128.true => rw [readLE_leBytes, ofNat_toNat_mod v (by decide)]
  case i16.true => exact dec_enc_small_fixed (by decide) (by decide) (by decide) v t
  case i32.true => exact dec_enc_small_fixed (by decide) (by decide) (by decide) v t
  case i64.true =>
    rw [Rd.bind_of_ok (readLE_leBytes _ _), ofNat_toNat_mod _ (by decide), z64]; rfl
  case isize.true =>
    rw [Rd.bind_of_ok (readLE_leBytes _ _), ofNat_toNat_mod _ (by decide), z64]; rfl
  case i128.true =>
    rw [Rd.bind_of_ok (readLE_leBytes _ _), ofNat_toNat_mod _ (by decide), z128]; rfl
  case u16.false =>
    rw [Rd.bind_of_ok (decodeU64_encodeU64 _ _), tryIntoU_setWidth (by decide)]; rfl
  case u32.false =>
    rw [Rd.bind_of_ok (decodeU64_encodeU64 _ _), tryIntoU_setWidth (by decide)]; rfl
  case u64.false => rw [decodeU64_encodeU64]
  case usize.false => rw [decodeU64_encodeU64]
  case u128.false => rw [decodeU128_encodeU128]
  case i16.false =>
    rw [Rd.bind_of_ok (decodeU64_encodeU64 _ _), z64, tryIntoI_signExtend (by decide) (by decide)]
    rfl
  case i32.false =>
    rw [Rd.bind_of_ok (decodeU64_encodeU64 _ _), z64, tryIntoI_signExtend (by decide) (by decide)]
    rfl
  case i64.false => rw [Rd.bind_of_ok (decodeU64_encodeU64 _ _), z64]; rfl
  case isize.false => rw [Rd.bind_of_ok (decodeU64_encodeU64 _ _), z64]; rfl
  case i128.false => rw [Rd.bind_of_ok (decodeU128_encodeU128 _ _), z128]; rfl

theorem decInt_framed (cfg : Cfg) (k : IntTy) : (decInt cfg k).Framed := by
  cases k <;> simp only [decInt]
  all_goals
    repeat' first
      | apply readLE_framed
      | apply decodeU64_framed
      | apply decodeU128_framed
      | apply Rd.Framed.lift
      | apply Rd.Framed.pure
      | apply Rd.Framed.ite
      | apply Rd.Framed.bind
      | intro _

theorem tryIntoU_ne_panic (w x) : tryIntoU w x ≠ .panic := by
  unfold tryIntoU; split <;> simp

theorem tryIntoI_ne_panic (w x) : tryIntoI w x ≠ .panic := by
  unfold tryIntoI; split <;> simp

theorem decInt_noPanic (cfg : Cfg) (k : IntTy) : (decInt cfg k).NoPanic := by
  cases k <;> simp only [decInt]
  all_goals
    repeat' first
      | apply readLE_noPanic
      | apply decodeU64_noPanic
      | apply decodeU128_noPanic
      | apply Rd.NoPanic.lift (tryIntoU_ne_panic _ _)
      | apply Rd.NoPanic.lift (tryIntoI_ne_panic _ _)
      | apply Rd.NoPanic.pure
      | apply Rd.NoPanic.ite
      | apply Rd.NoPanic.bind
      | intro s

/-! ### Codecs -/

theorem Codec.mirror_lawful {valid : α → Prop} {enc : α → Res Bytes} {dec : Rd α}
    (h1 : ∀ v, valid v → ∃ b, enc v = .ok b)
    (h2 : ∀ v b, valid v → enc v = .ok b → ∀ t, dec (b ++ t) = .ok (v, t))
    (h3 : dec.Framed) (h4 : dec.Yields valid) : (Codec.mirror valid enc dec).Lawful where
  enc_ok := h1
  round_trip := h2
  framed := h3
  sound := h4
  skip_agree := (Rd.Agree.refl _).discard
  skip_framed := h3.discard
  skipS_eq := rfl

theorem Codec.mirror_checks {valid : α → Prop} {enc : α → Res Bytes} {dec : Rd α} :
    (Codec.mirror valid enc dec).Checks := Rd.SameAccept.discard _

theorem Codec.mirror_panicFree {valid : α → Prop} {enc : α → Res Bytes} {dec : Rd α}
    (h : dec.NoPanic) : (Codec.mirror valid enc dec).PanicFree := ⟨h, h.discard, h.discard⟩

theorem intC_lawful (cfg : Cfg) (k : IntTy) : (intC cfg k).Lawful := by
  refine Codec.mirror_lawful (fun v _ => ⟨_, rfl⟩) ?_ (decInt_framed cfg k) Rd.Yields.trivial
  intro v b _ h t
  simp at h
  subst h
  exact decInt_encInt cfg k v t

theorem intC_checks (cfg : Cfg) (k : IntTy) : (intC cfg k).Checks := Codec.mirror_checks

theorem intC_panicFree (cfg : Cfg) (k : IntTy) : (intC cfg k).PanicFree :=
  Codec.mirror_panicFree (decInt_noPanic cfg k)

theorem fixedC_lawful (n : Nat) : (fixedC n).Lawful where
  enc_ok := fun v _ => ⟨_, rfl⟩
  round_trip := by
    intro v b _ h t
    simp [fixedC] at h
    subst h
    simp only [fixedC]
    rw [readLE_leBytes, ofNat_toNat_mod v (Nat.le_refl _)]
  framed := readLE_framed _ _
  sound := Rd.Yields.trivial
  skip_agree := (Rd.Agree.bind_pure_left (Rd.Agree.refl _)).discard
  skip_framed := (Rd.Framed.readExact n).discard
  skipS_eq := rfl

theorem fixedC_checks (n : Nat) : (fixedC n).Checks := by
  exact Rd.SameAccept.map (Rd.SameAccept.discard _)

theorem fixedC_panicFree (n : Nat) : (fixedC n).PanicFree :=
  ⟨readLE_noPanic _ _, (Rd.NoPanic.readExact n).discard, (Rd.NoPanic.readExact n).discard⟩

theorem floatC_lawful (n : Nat) : (floatC n).Lawful := by
  refine Codec.mirror_lawful (fun v _ => ⟨_, rfl⟩) ?_ (readLE_framed _ _) Rd.Yields.trivial
  intro v b _ h t
  simp at h
  subst h
  rw [readLE_leBytes, ofNat_toNat_mod v (Nat.le_refl _)]

theorem floatC_checks (n : Nat) : (floatC n).Checks := Codec.mirror_checks

theorem floatC_panicFree (n : Nat) : (floatC n).PanicFree :=
  Codec.mirror_panicFree (readLE_noPanic _ _)

theorem boolC_lawful : boolC.Lawful := by
  refine Codec.mirror_lawful (fun v _ => ⟨_, rfl⟩) ?_ ?_ Rd.Yields.trivial
  · intro v b _ h t
    simp at h
    subst h
    cases v <;> rfl
  · refine Rd.Framed.bind Rd.Framed.readByte fun b => ?_
    repeat' first
      | apply Rd.Framed.ite | apply Rd.Framed.fail | apply Rd.Framed.pure

theorem boolC_checks : boolC.Checks := Codec.mirror_checks

theorem boolC_panicFree : boolC.PanicFree := by
  refine Codec.mirror_panicFree (Rd.NoPanic.bind Rd.NoPanic.readByte fun b => ?_)
  repeat' first
    | apply Rd.NoPanic.ite | apply Rd.NoPanic.fail | apply Rd.NoPanic.pure

/-! ### Length prefixes and tags -/

theorem readLen_encLen (cfg : Cfg) {n : Nat} (h : n < 2 ^ 64) (t : Bytes) :
    readLen cfg (encLen cfg n ++ t) = .ok (n, t) := by
  rw [readLen, encLen, Rd.bind_of_ok (decInt_encInt cfg .usize _ t)]
  simp [Nat.mod_eq_of_lt h]

theorem readLen_framed (cfg : Cfg) : (readLen cfg).Framed :=
  Rd.Framed.bind (decInt_framed cfg _) fun _ => Rd.Framed.pure _

theorem readLen_noPanic (cfg : Cfg) : (readLen cfg).NoPanic :=
  Rd.NoPanic.bind (decInt_noPanic cfg _) fun _ => Rd.NoPanic.pure _

theorem readLen_yields (cfg : Cfg) : (readLen cfg).Yields (· < 2 ^ 64) :=
  Rd.Yields.bind_any fun a => Rd.Yields.pure a.isLt

theorem readU32_encU32 (cfg : Cfg) {n : Nat} (h : n < 2 ^ 32) (t : Bytes) :
    readU32 cfg (encU32 cfg n ++ t) = .ok (n, t) := by
  rw [readU32, encU32, Rd.bind_of_ok (decInt_encInt cfg .u32 _ t)]
  simp [Nat.mod_eq_of_lt h]

theorem readU32_framed (cfg : Cfg) : (readU32 cfg).Framed :=
  Rd.Framed.bind (decInt_framed cfg _) fun _ => Rd.Framed.pure _

theorem readU32_noPanic (cfg : Cfg) : (readU32 cfg).NoPanic :=
  Rd.NoPanic.bind (decInt_noPanic cfg _) fun _ => Rd.NoPanic.pure _

theorem readU32_yields (cfg : Cfg) : (readU32 cfg).Yields (· < 2 ^ 32) :=
  Rd.Yields.bind_any fun a => Rd.Yields.pure a.isLt

theorem readU16_encU16 (cfg : Cfg) {n : Nat} (h : n < 2 ^ 16) (t : Bytes) :
    readU16 cfg (encU16 cfg n ++ t) = .ok (n, t) := by
  rw [readU16, encU16, Rd.bind_of_ok (decInt_encInt cfg .u16 _ t)]
  simp [Nat.mod_eq_of_lt h]

theorem readU16_framed (cfg : Cfg) : (readU16 cfg).Framed :=
  Rd.Framed.bind (decInt_framed cfg _) fun _ => Rd.Framed.pure _

theorem readU16_noPanic (cfg : Cfg) : (readU16 cfg).NoPanic :=
  Rd.NoPanic.bind (decInt_noPanic cfg _) fun _ => Rd.NoPanic.pure _

theorem readU16_yields (cfg : Cfg) : (readU16 cfg).Yields (· < 2 ^ 16) :=
  Rd.Yields.bind_any fun a => Rd.Yields.pure a.isLt

end Revision
