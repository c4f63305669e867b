import Verif.Proofs.Prim

/-! Helper lemmas about integer encodings: sizes, minimality, narrowing. -/

namespace Revision

theorem encodeU64_length (v : BitVec 64) : (encodeU64 v).length = varintSize v.toNat := by
  have := v.isLt
  unfold encodeU64 varintSize
  repeat' split
  all_goals simp_all
  all_goals omega

theorem encodeU128_length (v : BitVec 128) : (encodeU128 v).length = varintSize v.toNat := by
  unfold encodeU128 varintSize
  repeat' split
  all_goals simp_all

/-- What `decodeU128` accepts. -/
theorem decodeU128_ok {s r : Bytes} {x : BitVec 128} (h : decodeU128 s = .ok (x, r)) :
    ∃ b t, s = b :: t ∧
     ((b.toNat < 251 ∧ x.toNat = b.toNat ∧ r = t)
      ∨ (b = 251 ∧ t.length = 2 + r.length ∧ x.toNat < 2 ^ 16)
      ∨ (b = 252 ∧ t.length = 4 + r.length ∧ x.toNat < 2 ^ 32)
      ∨ (b = 253 ∧ t.length = 8 + r.length ∧ x.toNat < 2 ^ 64)
      ∨ (b = 254 ∧ t.length = 16 + r.length)) := by
  have hle : ∀ n t, readLE 128 n t = .ok (x, r) →
      t.length = n + r.length ∧ (n ≤ 16 → x.toNat < 2 ^ (8 * n)) := by
    intro n t ht
    obtain ⟨u, r', h1, h2⟩ := Rd.bind_ok.1 ht
    simp at h2
    obtain ⟨rfl, rfl⟩ := h2
    have h3 := Rd.Yields.readExact n _ _ _ h1
    simp only [Rd.readExact] at h1
    split at h1
    · simp at h1
      obtain ⟨rfl, rfl⟩ := h1
      refine ⟨by simp; omega, fun hn => ?_⟩
      have := leVal_lt (t.take n)
      rw [h3, pow256] at this
      have h5 : 2 ^ (8 * n) ≤ 2 ^ 128 := Nat.pow_le_pow_right (by decide) (by omega)
      rw [BitVec.toNat_ofNat, Nat.mod_eq_of_lt (by omega)]
      exact this
    · simp at h1
  obtain ⟨b, t, h1, h2⟩ := Rd.bind_ok.1 h
  cases s with
  | nil => simp [Rd.readByte] at h1
  | cons b' t' =>
    simp at h1
    obtain ⟨rfl, rfl⟩ := h1
    refine ⟨_, _, rfl, ?_⟩
    split at h2
    · have := hle _ _ h2; exact .inr (.inl ⟨‹_›, this.1, by simpa using this.2⟩)
    split at h2
    · have := hle _ _ h2; exact .inr (.inr (.inl ⟨‹_›, this.1, by simpa using this.2⟩))
    split at h2
    · have := hle _ _ h2; exact .inr (.inr (.inr (.inl ⟨‹_›, this.1, by simpa using this.2⟩)))
    split at h2
    · have := hle _ _ h2; exact .inr (.inr (.inr (.inr ⟨‹_›, this.1⟩)))
    split at h2
    · simp at h2
    · simp at h2
      obtain ⟨rfl, rfl⟩ := h2
      have hb := b'.toNat_lt
      have hn : ∀ k : Nat, k < 256 → b' ≠ UInt8.ofNat k → b'.toNat ≠ k := by
        intro k hk hne he; apply hne; rw [← he]; simp
      have h1 := hn 251 (by decide) ‹_›
      have h2 := hn 252 (by decide) ‹_›
      have h3 := hn 253 (by decide) ‹_›
      have h4 := hn 254 (by decide) ‹_›
      have h5 := hn 255 (by decide) ‹_›
      refine .inl ⟨by omega, ?_, rfl⟩
      simp; omega

theorem readLE_widen {n : Nat} (hn : n ≤ 8) {s r : Bytes} {x : BitVec 64} :
    readLE 64 n s = .ok (x, r) ↔ readLE 128 n s = .ok (x.setWidth 128, r) := by
  simp only [readLE, Rd.bind_run, Rd.readExact]
  by_cases h : n ≤ s.length
  · simp only [h, if_true, Rd.pure_run]
    have hlt := leVal_lt (s.take n)
    have hl : (s.take n).length = n := by simp [h]
    rw [hl, pow256] at hlt
    have h5 : 2 ^ (8 * n) ≤ 2 ^ 64 := Nat.pow_le_pow_right (by decide) (by omega)
    simp only [Res.ok.injEq, Prod.mk.injEq]
    refine and_congr_left fun _ => ?_
    constructor
    · intro he
      rw [← he]
      apply BitVec.eq_of_toNat_eq
      simp
      omega
    · intro he
      have := congrArg BitVec.toNat he
      simp at this
      apply BitVec.eq_of_toNat_eq
      simp
      omega
  · simp [h]

/-- `decode_u64` accepts what `decode_u128` accepts except under tag 254. -/
theorem decodeU64_iff {s r : Bytes} {x : BitVec 64} :
    decodeU64 s = .ok (x, r) ↔ decodeU128 s = .ok (x.setWidth 128, r) ∧ s.head? ≠ some 254 := by
  cases s with
  | nil => simp [decodeU64, decodeU128, Rd.bind_run, Rd.readByte]
  | cons b t =>
    simp only [decodeU64, decodeU128, Rd.bind_of_ok (Rd.readByte_cons _ _), List.head?_cons]
    by_cases h1 : b = 251
    · subst h1
      simp only [if_true]
      rw [readLE_widen (by decide)]
      exact ⟨fun h => ⟨h, by decide⟩, fun h => h.1⟩
    simp only [h1, if_false]
    by_cases h2 : b = 252
    · subst h2
      simp only [if_true]
      rw [readLE_widen (by decide)]
      exact ⟨fun h => ⟨h, by decide⟩, fun h => h.1⟩
    simp only [h2, if_false]
    by_cases h3 : b = 253
    · subst h3
      simp only [if_true]
      rw [readLE_widen (by decide)]
      exact ⟨fun h => ⟨h, by decide⟩, fun h => h.1⟩
    simp only [h3, if_false]
    by_cases h4 : b = 254
    · simp [h4]
    simp only [h4, if_false]
    by_cases h5 : b = 255
    · simp [h5]
    simp only [h5, if_false]
    simp only [Rd.pure_run, Res.ok.injEq, Prod.mk.injEq, Option.some.injEq, ne_eq, h4,
      not_false_eq_true, and_true]
    refine and_congr_left fun _ => ?_
    have hb := b.toNat_lt
    constructor
    · intro he
      rw [← he]
      apply BitVec.eq_of_toNat_eq
      simp
    · intro he
      have := congrArg BitVec.toNat he
      simp at this
      apply BitVec.eq_of_toNat_eq
      simp
      omega

theorem decodeU64_overflow {s r : Bytes} {x : BitVec 128}
    (h : decodeU128 s = .ok (x, r)) (hx : 2 ^ 64 ≤ x.toNat) :
    decodeU64 s = .err .integerOverflow := by
  obtain ⟨b, t, hs, h1⟩ := decodeU128_ok h
  rw [hs]
  have hb : b = 254 := by
    rcases h1 with h | h | h | h | h
    · omega
    · omega
    · omega
    · omega
    · exact h.1
  rw [hb]
  rfl

theorem decodeU64_exists {s r : Bytes} {P : Nat → Prop} :
    (∃ x, decodeU64 s = .ok (x, r) ∧ P x.toNat) ↔
      ∃ x : BitVec 128, decodeU128 s = .ok (x, r) ∧ x.toNat < 2 ^ 64 ∧ P x.toNat ∧
        s.head? ≠ some 254 := by
  constructor
  · rintro ⟨x, hx, hP⟩
    have hl := x.isLt
    have hn : (x.setWidth 128).toNat = x.toNat := by simp; omega
    obtain ⟨h1, h2⟩ := decodeU64_iff.1 hx
    exact ⟨_, h1, by rw [hn]; exact hl, by rw [hn]; exact hP, h2⟩
  · rintro ⟨x, hx, hl, hP, h2⟩
    have hn : (x.setWidth 64).toNat = x.toNat := by simp; omega
    refine ⟨x.setWidth 64, decodeU64_iff.2 ⟨?_, h2⟩, by rw [hn]; exact hP⟩
    rw [hx]
    congr 2
    apply BitVec.eq_of_toNat_eq
    simp; omega

theorem gazgizSpec_range {n w : Nat} (hw : 0 < w) :
    (-(2 ^ (w - 1) : Int) ≤ gazgizSpec n ∧ gazgizSpec n < 2 ^ (w - 1)) ↔ n < 2 ^ w := by
  have hp := two_pow_pred hw
  have h4 : ((2 ^ (w - 1) : Nat) : Int) = 2 ^ (w - 1) := by push_cast; rfl
  unfold gazgizSpec
  rw [← h4]
  split <;> constructor <;> intro h <;> omega

/-- The mathematical integer that the wire number `n` means at type `k`. -/
def IntTy.ofWire (k : IntTy) (n : Nat) : Int := if k.signed then gazgizSpec n else n

theorem setWidth16_toInt (x : BitVec 64) (h : -(2 ^ 15 : Int) ≤ x.toInt ∧ x.toInt < 2 ^ 15) :
    (x.setWidth 16).toInt = x.toInt := by
  rw [BitVec.toInt_eq_toNat_cond] at h ⊢
  rw [BitVec.toInt_eq_toNat_cond, BitVec.toNat_setWidth]
  have := x.isLt
  split <;> split <;> simp_all <;> omega

theorem setWidth32_toInt (x : BitVec 64) (h : -(2 ^ 31 : Int) ≤ x.toInt ∧ x.toInt < 2 ^ 31) :
    (x.setWidth 32).toInt = x.toInt := by
  rw [BitVec.toInt_eq_toNat_cond] at h ⊢
  rw [BitVec.toInt_eq_toNat_cond, BitVec.toNat_setWidth]
  have := x.isLt
  split <;> split <;> simp_all <;> omega

theorem tryIntoU_ok_iff {w : Nat} {x : BitVec 64} {v : BitVec w} :
    tryIntoU w x = .ok v ↔ x.toNat < 2 ^ w ∧ v.toNat = x.toNat := by
  unfold tryIntoU
  split
  · rename_i h
    simp only [Res.ok.injEq, h, true_and]
    constructor
    · rintro rfl; simp [Nat.mod_eq_of_lt h]
    · intro he; apply BitVec.eq_of_toNat_eq; simp [Nat.mod_eq_of_lt h, he]
  · rename_i h; simp [h]

theorem tryIntoI_ok_iff {w : Nat}
    (hw : ∀ x : BitVec 64, -(2 ^ (w - 1) : Int) ≤ x.toInt ∧ x.toInt < 2 ^ (w - 1) →
      (x.setWidth w).toInt = x.toInt) {x : BitVec 64} {v : BitVec w} :
    tryIntoI w x = .ok v ↔
      (-(2 ^ (w - 1) : Int) ≤ x.toInt ∧ x.toInt < 2 ^ (w - 1)) ∧ v.toInt = x.toInt := by
  unfold tryIntoI
  split
  · rename_i h
    simp only [Res.ok.injEq]
    constructor
    · rintro rfl; exact ⟨h, hw x h⟩
    · intro he; apply BitVec.eq_of_toInt_eq; rw [hw x h, he.2]
  · rename_i h; simp [h]

theorem lift_run_ok {x : Res α} {s r : Bytes} {a : α} :
    Rd.lift x s = .ok (a, r) ↔ x = .ok a ∧ s = r := by
  cases x <;> simp

theorem bind_lift_ok {m : Rd α} {f : α → Res β} {s r : Bytes} {b : β} :
    (m >>= fun a => Rd.lift (f a)) s = .ok (b, r) ↔ ∃ a, m s = .ok (a, r) ∧ f a = .ok b := by
  rw [Rd.bind_ok]
  constructor
  · rintro ⟨a, r', h, h2⟩
    obtain ⟨h3, rfl⟩ := lift_run_ok.1 h2
    exact ⟨a, h, h3⟩
  · rintro ⟨a, h, h2⟩
    exact ⟨a, r, h, lift_run_ok.2 ⟨h2, rfl⟩⟩

theorem bind_pure_ok {m : Rd α} {f : α → β} {s r : Bytes} {b : β} :
    (m >>= fun a => pure (f a)) s = .ok (b, r) ↔ ∃ a, m s = .ok (a, r) ∧ f a = b := by
  rw [Rd.bind_ok]
  constructor
  · rintro ⟨a, r', h, h2⟩
    simp at h2
    obtain ⟨h3, rfl⟩ := h2
    exact ⟨a, h, h3⟩
  · rintro ⟨a, h, h2⟩
    exact ⟨a, r, h, by simp [h2]⟩

/-- What a variable-length integer decoder accepts, in terms of the number on the wire. -/
theorem decInt_ok_iff {cfg : Cfg} (hc : cfg.fixedWidth = false) {k : IntTy} (hk : k.IsVar)
    {s r : Bytes} {v : BitVec k.bits} :
    decInt cfg k s = .ok (v, r) ↔
      ∃ x : BitVec 128, decodeU128 s = .ok (x, r) ∧ x.toNat < 2 ^ k.bits ∧
        k.value v = k.ofWire x.toNat ∧ (k.bits < 128 → s.head? ≠ some 254) := by
  -- 64-bit and narrower types
  have key : ∀ (Q : Prop), k.bits ≤ 64 →
      (Q ↔ ∃ x, decodeU64 s = .ok (x, r) ∧ x.toNat < 2 ^ k.bits ∧ k.value v = k.ofWire x.toNat) →
      (Q ↔ ∃ x : BitVec 128, decodeU128 s = .ok (x, r) ∧ x.toNat < 2 ^ k.bits ∧
        k.value v = k.ofWire x.toNat ∧ (k.bits < 128 → s.head? ≠ some 254)) := by
    intro Q hb hQ
    rw [hQ, decodeU64_exists (P := fun n => n < 2 ^ k.bits ∧ k.value v = k.ofWire n)]
    have h64 : 2 ^ k.bits ≤ 2 ^ 64 := Nat.pow_le_pow_right (by decide) hb
    constructor
    · rintro ⟨x, h1, h2, h3, h4⟩
      exact ⟨x, h1, h3.1, h3.2, fun _ => h4⟩
    · rintro ⟨x, h1, h2, h3, h4⟩
      exact ⟨x, h1, by omega, ⟨h2, h3⟩, h4 (by omega)⟩
  have uns : ∀ (w : Nat) (v : BitVec w),
      (do let x ← decodeU64; Rd.lift (tryIntoU w x) : Rd (BitVec w)) s = .ok (v, r) ↔
      ∃ x, decodeU64 s = .ok (x, r) ∧ x.toNat < 2 ^ w ∧ (v.toNat : Int) = (x.toNat : Int) := by
    intro w v
    rw [bind_lift_ok]
    simp only [tryIntoU_ok_iff, Int.natCast_inj]
  have sig : ∀ (w : Nat) (h0 : 0 < w) (hw : ∀ x : BitVec 64,
      -(2 ^ (w - 1) : Int) ≤ x.toInt ∧ x.toInt < 2 ^ (w - 1) →
      (x.setWidth w).toInt = x.toInt) (v : BitVec w),
      (do let x ← decodeU64; Rd.lift (tryIntoI w (gazgiz x)) : Rd (BitVec w)) s = .ok (v, r) ↔
      ∃ x, decodeU64 s = .ok (x, r) ∧ x.toNat < 2 ^ w ∧ v.toInt = gazgizSpec x.toNat := by
    intro w h0 hw v
    rw [bind_lift_ok]
    simp only [tryIntoI_ok_iff hw, gazgiz_toInt (show 0 < 64 by decide), gazgizSpec_range h0]
  have u64 : ∀ v : BitVec 64, decodeU64 s = .ok (v, r) ↔
      ∃ x, decodeU64 s = .ok (x, r) ∧ x.toNat < 2 ^ 64 ∧ (v.toNat : Int) = (x.toNat : Int) := by
    intro v
    constructor
    · intro h; exact ⟨v, h, v.isLt, rfl⟩
    · rintro ⟨x, h, -, h2⟩
      have : v = x := BitVec.eq_of_toNat_eq (by omega)
      rw [this, h]
  have i64 : ∀ v : BitVec 64, (do let x ← decodeU64; pure (gazgiz x) : Rd (BitVec 64)) s
        = .ok (v, r) ↔
      ∃ x, decodeU64 s = .ok (x, r) ∧ x.toNat < 2 ^ 64 ∧ v.toInt = gazgizSpec x.toNat := by
    intro v
    rw [bind_pure_ok]
    constructor
    · rintro ⟨x, h, rfl⟩
      exact ⟨x, h, x.isLt, gazgiz_toInt (by decide) x⟩
    · rintro ⟨x, h, -, h2⟩
      refine ⟨x, h, BitVec.eq_of_toInt_eq ?_⟩
      rw [h2, gazgiz_toInt (by decide)]
  cases k <;> simp only [IntTy.bits] at v key
  case u8 => exact absurd rfl hk.1
  case i8 => exact absurd rfl hk.2
  case u16 =>
    refine key _ (by decide) ?_
    simp only [decInt, hc]
    exact uns 16 v
  case u32 =>
    refine key _ (by decide) ?_
    simp only [decInt, hc]
    exact uns 32 v
  case u64 =>
    refine key _ (by decide) ?_
    simp only [decInt, hc]
    exact u64 v
  case usize =>
    refine key _ (by decide) ?_
    simp only [decInt, hc]
    exact u64 v
  case i16 =>
    refine key _ (by decide) ?_
    simp only [decInt, hc]
    exact sig 16 (by decide) setWidth16_toInt v
  case i32 =>
    refine key _ (by decide) ?_
    simp only [decInt, hc]
    exact sig 32 (by decide) setWidth32_toInt v
  case i64 =>
    refine key _ (by decide) ?_
    simp only [decInt, hc]
    exact i64 v
  case isize =>
    refine key _ (by decide) ?_
    simp only [decInt, hc]
    exact i64 v
  case u128 =>
    simp only [decInt, hc, IntTy.value, IntTy.ofWire, IntTy.signed, Bool.false_eq_true, if_false]
    constructor
    · intro h; exact ⟨v, h, v.isLt, rfl, by simp⟩
    · rintro ⟨x, h, -, h2, -⟩
      have : v = x := BitVec.eq_of_toNat_eq (by omega)
      rw [this, h]
  case i128 =>
    simp only [decInt, hc, IntTy.value, IntTy.ofWire, IntTy.signed, Bool.false_eq_true, if_false,
      if_true]
    rw [bind_pure_ok]
    constructor
    · rintro ⟨x, h, rfl⟩
      exact ⟨x, h, x.isLt, gazgiz_toInt (by decide) x, by simp⟩
    · rintro ⟨x, h, -, h2, -⟩
      refine ⟨x, h, BitVec.eq_of_toInt_eq ?_⟩
      rw [h2, gazgiz_toInt (by decide)]

/-- Anything too big for the type is reported as an overflow. -/
theorem decInt_overflow {cfg : Cfg} (hc : cfg.fixedWidth = false) {k : IntTy} (hk : k.IsVar)
    {s r : Bytes} {x : BitVec 128} (h : decodeU128 s = .ok (x, r)) (hx : 2 ^ k.bits ≤ x.toNat) :
    decInt cfg k s = .err .integerOverflow := by
  have hl := x.isLt
  by_cases h64 : 2 ^ 64 ≤ x.toNat
  · have hov := decodeU64_overflow h h64
    cases k <;> simp only [decInt, hc, Bool.false_eq_true, if_false]
    case u8 => exact absurd rfl hk.1
    case i8 => exact absurd rfl hk.2
    all_goals first
      | exact hov
      | exact Rd.bind_of_err hov
      | (simp [IntTy.bits] at hx; omega)
  · by_cases h254 : s.head? = some 254
    · -- non-canonical: a 16-byte encoding of a smaller number
      have hov : decodeU64 s = .err .integerOverflow := by
        cases s with
        | nil => simp at h254
        | cons b t => simp at h254; subst h254; rfl
      cases k <;> simp only [decInt, hc, Bool.false_eq_true, if_false]
      case u8 => exact absurd rfl hk.1
      case i8 => exact absurd rfl hk.2
      all_goals first
        | exact hov
        | exact Rd.bind_of_err hov
        | (simp [IntTy.bits] at hx; omega)
    · have h64' : decodeU64 s = .ok (x.setWidth 64, r) := by
        refine decodeU64_iff.2 ⟨?_, h254⟩
        rw [h]
        congr 2
        apply BitVec.eq_of_toNat_eq
        simp; omega
      have hn : (x.setWidth 64).toNat = x.toNat := by simp; omega
      cases k <;> simp only [decInt, hc, Bool.false_eq_true, if_false, IntTy.bits] at hx ⊢
      case u8 => exact absurd rfl hk.1
      case i8 => exact absurd rfl hk.2
      case u16 | u32 =>
        rw [Rd.bind_of_ok h64', tryIntoU, if_neg (by omega)]; rfl
      case i16 =>
        rw [Rd.bind_of_ok h64', tryIntoI, if_neg]
        · rfl
        · rw [gazgiz_toInt (by decide), gazgizSpec_range (by decide)]; omega
      case i32 =>
        rw [Rd.bind_of_ok h64', tryIntoI, if_neg]
        · rfl
        · rw [gazgiz_toInt (by decide), gazgizSpec_range (by decide)]; omega
      all_goals omega

theorem inRange_ofWire {k : IntTy} (hk : 0 < k.bits) {n : Nat} :
    k.InRange (k.ofWire n) ↔ n < 2 ^ k.bits := by
  unfold IntTy.InRange IntTy.ofWire
  cases k.signed
  · simp
    have h4 : ((2 ^ k.bits : Nat) : Int) = 2 ^ k.bits := by push_cast; rfl
    rw [← h4]
    omega
  · simp only [if_true]
    exact gazgizSpec_range hk

theorem wireNat_ofWire (k : IntTy) (n : Nat) : k.wireNat (k.ofWire n) = n := by
  unfold IntTy.wireNat IntTy.ofWire
  cases k.signed <;> simp [zigzagSpec_gazgizSpec]

theorem IntTy.bits_pos (k : IntTy) : 0 < k.bits := by cases k <;> decide

theorem value_inj {k : IntTy} {v w : BitVec k.bits} (h : k.value v = k.value w) : v = w := by
  unfold IntTy.value at h
  cases hs : k.signed <;> simp [hs] at h
  · exact BitVec.eq_of_toNat_eq (by omega)
  · exact BitVec.eq_of_toInt_eq h

/-- Size of a variable-length encoding. -/
theorem encInt_length {cfg : Cfg} (hc : cfg.fixedWidth = false) {k : IntTy} (hk : k.IsVar)
    (v : BitVec k.bits) : (encInt cfg k v).length = varintSize (k.wireNat (k.value v)) := by
  have hz : ∀ (w : Nat) (hw : w ≤ 64) (v : BitVec w),
      (zigzag (v.signExtend 64)).toNat = zigzagSpec v.toInt := by
    intro w hw v
    rw [zigzag_toNat (by decide), signExtend_toInt hw]
  cases k <;>
    simp only [encInt, hc, Bool.false_eq_true, if_false, IntTy.wireNat, IntTy.value, IntTy.signed,
      if_true, IntTy.bits, encodeU64_length, encodeU128_length] at v ⊢
  case u8 => exact absurd rfl hk.1
  case i8 => exact absurd rfl hk.2
  case u16 | u32 =>
    have := v.isLt
    simp only [BitVec.toNat_setWidth, Int.toNat_natCast]
    rw [Nat.mod_eq_of_lt (by omega)]
  case i16 => rw [hz 16 (by decide)]
  case i32 => rw [hz 32 (by decide)]
  case i64 | isize | i128 => rw [zigzag_toNat (by decide)]
  all_goals rfl

/-- Every accepted encoding of a wire number is at least as long as the canonical one. -/
theorem decodeU128_min {s r : Bytes} {x : BitVec 128} (h : decodeU128 s = .ok (x, r)) :
    varintSize x.toNat + r.length ≤ s.length := by
  obtain ⟨b, t, hs, h1⟩ := decodeU128_ok h
  subst hs
  unfold varintSize
  simp only [List.length_cons]
  rcases h1 with ⟨h, h2, rfl⟩ | ⟨-, h, h2⟩ | ⟨-, h, h2⟩ | ⟨-, h, h2⟩ | ⟨-, h⟩
  all_goals
    repeat' split
  all_goals omega

end Revision
