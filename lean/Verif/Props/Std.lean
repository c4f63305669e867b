import Verif.Proofs.Packed
import Verif.Props.Types

/-! # Properties of particular standard types: C15–C21, C62, C64 -/

namespace Revision

variable {ι : Type} (cfg : Cfg) (E : Env ι)

/-! ### C15: packed booleans -/

/-- C15: with specialised vectors a `Vec<bool>` is its length prefix plus one byte per eight
elements, and bit `i % 8` of byte `i / 8` is element `i` (unused bits are zero). -/
theorem C15_layout (hs : cfg.specialised = true) (l : List Bool) :
    ∃ packed, ((Ty.vec .bool).codec cfg E).toVec l = .ok (encLen cfg l.length ++ packed) ∧
      packed.length = (l.length + 7) / 8 ∧
      ∀ i, (packed.getD (i / 8) 0).toNat.testBit (i % 8) = l.getD i false := by
  refine ⟨packBools (divCeil8 l.length) l, ?_, packBools_length _ _, fun i => ?_⟩
  · simp [Codec.toVec, Ty.codec, vecOf, hs, boolsC]
  · exact bitAt_packBools _ l i rfl

example : ∃ packed, ((Ty.vec .bool).codec .default demoEnv).toVec [true, false, true] =
    .ok (encLen .default 3 ++ packed) ∧ packed.length = 1 ∧
      ∀ i, (packed.getD (i / 8) 0).toNat.testBit (i % 8) = [true, false, true].getD i false :=
  C15_layout .default demoEnv rfl _

/-- C15: decoding reads element `i` from bit `i % 8` of byte `i / 8`, whatever the padding bits
hold. -/
theorem C15_decode (hs : cfg.specialised = true) (n : Nat) (hn : n < 2 ^ 64)
    (hc : ∀ m, m ≤ n → E.cap .bool m = true) (packed rest : Bytes)
    (hp : packed.length = (n + 7) / 8) :
    ((Ty.vec .bool).codec cfg E).dec (encLen cfg n ++ (packed ++ rest)) =
      .ok ((List.range n).map fun i => (packed.getD (i / 8) 0).toNat.testBit (i % 8), rest) := by
  simp only [Ty.codec, vecOf, hs, if_true, boolsC]
  rw [Rd.bind_of_ok (readLen_encLen cfg hn _)]
  by_cases h0 : n = 0
  · subst h0
    have : packed = [] := by simpa using hp
    simp [this]
  · rw [if_neg h0, hc _ (by unfold divCeil8; omega), Rd.alloc_true, Rd.pure_bind,
      Rd.bind_of_ok (Rd.readExact_append _ rest (divCeil8 n) hp), hc n (Nat.le_refl _), Rd.alloc_true,
      Rd.pure_bind, unpackBools_eq packed n hp.symm]
    rfl

example : ((Ty.vec .bool).codec .default demoEnv).dec (encLen .default 9 ++ ([0xaa, 1] ++ [7])) =
    .ok ([false, true, false, true, false, true, false, true, true], [7]) :=
  C15_decode .default demoEnv rfl 9 (by decide) (fun m hm => by simp [demoEnv]; omega) [0xaa, 1] [7] rfl

/-- The same packed byte with its seven padding bits set or clear. -/
example : ((Ty.vec .bool).codec .default demoEnv).dec [1, 0xff] = .ok ([true], []) ∧
    ((Ty.vec .bool).codec .default demoEnv).dec [1, 0x01] = .ok ([true], []) := by
  constructor <;> decide

/-! ### C16: bulk vectors -/

/-- C16: with specialised vectors a `Vec` of fixed-width integers is its length prefix followed by
exactly `n * width` bytes, element `i` being the `width` bytes at `i * width`, little-endian. -/
theorem C16_layout (hs : cfg.specialised = true) (k : IntTy) (hk : k ≠ .usize ∧ k ≠ .isize)
    (l : List (BitVec k.bits)) :
    ∃ body, ((Ty.vec (.int k)).codec cfg E).toVec l = .ok (encLen cfg l.length ++ body) ∧
      body.length = l.length * (k.bits / 8) ∧
      ∀ i (h : i < l.length), leVal ((body.drop (i * (k.bits / 8))).take (k.bits / 8)) = l[i].toNat := by
  refine ⟨l.flatMap fun v => leBytes (k.bits / 8) v.toNat, ?_, flatMap_leBytes_length _ _, ?_⟩
  · simp [Codec.toVec, Ty.codec, vecOf, hs, hk.1, hk.2, bulkC]
  · intro i hi
    rw [flatMap_slice _ _ _ hi, leVal_leBytes, pow256, ← k.bits_eight]
    exact Nat.mod_eq_of_lt l[i].isLt

example : ∃ body, ((Ty.vec (.int .i16)).codec .default demoEnv).toVec [1, 0x0203] =
    .ok (encLen .default 2 ++ body) ∧ body.length = 4 ∧
      ∀ i (h : i < 2), leVal ((body.drop (i * 2)).take 2) = ([1, 0x0203] : List (BitVec 16))[i].toNat :=
  C16_layout .default demoEnv rfl .i16 (by decide) [1, 0x0203]

/-- C16: the same for `f32` and `f64`. -/
theorem C16_layout_float (hs : cfg.specialised = true) (f : FloatTy)
    (l : List (BitVec (8 * f.bytes))) :
    ∃ body, ((Ty.vec (.float f)).codec cfg E).toVec l = .ok (encLen cfg l.length ++ body) ∧
      body.length = l.length * f.bytes ∧
      ∀ i (h : i < l.length), leVal ((body.drop (i * f.bytes)).take f.bytes) = l[i].toNat := by
  refine ⟨l.flatMap fun v => leBytes f.bytes v.toNat, ?_, flatMap_leBytes_length _ _, ?_⟩
  · simp [Codec.toVec, Ty.codec, vecOf, hs, bulkC]
  · intro i hi
    rw [flatMap_slice _ _ _ hi, leVal_leBytes, pow256]
    exact Nat.mod_eq_of_lt l[i].isLt

example : ∃ body, ((Ty.vec (.float .f32)).codec .default demoEnv).toVec [0x3f800000] =
    .ok (encLen .default 1 ++ body) ∧ body.length = 4 :=
  let ⟨b, h1, h2, _⟩ := C16_layout_float .default demoEnv rfl .f32 [0x3f800000]
  ⟨b, h1, h2⟩

/-- C16: round trip. -/
theorem C16_round_trip (k : IntTy) (l : List (BitVec k.bits)) (hE : E.Lawful)
    (h1 : l.length * (k.bits / 8) < 2 ^ 64) (h2 : E.cap (.int k) l.length = true) :
    ∃ b, ((Ty.vec (.int k)).codec cfg E).toVec l = .ok b ∧
      ((Ty.vec (.int k)).codec cfg E).fromSlice b = .ok l :=
  C05_round_trip cfg E hE (.vec (.int k)) l (fun _ _ => trivial) ⟨h1, h2, fun _ _ => trivial⟩

example : ∃ b, ((Ty.vec (.int .u64)).codec .default demoEnv).toVec [0xffffffffffffffff, 3] = .ok b ∧
    ((Ty.vec (.int .u64)).codec .default demoEnv).fromSlice b = .ok [0xffffffffffffffff, 3] :=
  C16_round_trip .default demoEnv .u64 _ demoEnv_lawful (by decide) rfl

/-- C16: a declared length whose byte count does not fit `usize` is `IntegerOverflow`, for decode
and for skip, before anything further is read or allocated. -/
theorem C16_overflow (hs : cfg.specialised = true) (k : IntTy) (hk : k ≠ .usize ∧ k ≠ .isize)
    (n : Nat) (hn : n < 2 ^ 64) (ho : 2 ^ 64 ≤ n * (k.bits / 8)) (rest : Bytes) :
    ((Ty.vec (.int k)).codec cfg E).dec (encLen cfg n ++ rest) = .err .integerOverflow ∧
    ((Ty.vec (.int k)).codec cfg E).skip (encLen cfg n ++ rest) = .err .integerOverflow := by
  have h0 : n ≠ 0 := by rintro rfl; simp at ho
  have h1 : ¬ n * (k.bits / 8) < 2 ^ 64 := by omega
  have h2 : (cfg.specialised && k != .usize && k != .isize) = true := by simp [hs, hk.1, hk.2]
  simp only [Ty.codec, vecOf, h2, if_true, bulkC]
  constructor
  · rw [Rd.bind_of_ok (readLen_encLen cfg hn _), if_neg h0, if_neg h1]; rfl
  · rw [Rd.bind_of_ok (readLen_encLen cfg hn _), if_neg h1]; rfl

example : ((Ty.vec (.int .u32)).codec .default demoEnv).dec (encLen .default (2 ^ 62) ++ [1, 2]) =
    .err .integerOverflow :=
  (C16_overflow .default demoEnv rfl .u32 (by decide) (2 ^ 62) (by decide) (by decide) [1, 2]).1

example : ((Ty.vec (.int .u16)).codec .default demoEnv).toVec [1, 0x0203] = .ok [2, 1, 0, 3, 2] := by
  decide
example : (2 : Nat) ^ 64 ≤ 2 ^ 62 * (IntTy.bits .u32 / 8) := by decide

/-! ### C17: characters -/

/-- C17: a `char` is written as its UTF-8 encoding. -/
theorem C17_encoding (c : Char) :
    ((Ty.char : Ty ι).codec cfg E).toVec c = .ok (String.singleton c).toByteArray.data.toList := by
  have : (String.singleton c).toByteArray.data.toList = String.utf8EncodeChar c := by
    have := strBytes_eq_flatMap (String.singleton c)
    simpa [strBytes] using this
  rw [this]
  rfl

/-- C17: decoding accepts exactly the UTF-8 encodings of scalar values (`Char` in Lean is the type
of Unicode scalar values), consuming exactly that encoding. -/
theorem C17_accepts_iff (s rest : Bytes) (c : Char) :
    ((Ty.char : Ty ι).codec cfg E).dec s = .ok (c, rest) ↔
      s = (String.singleton c).toByteArray.data.toList ++ rest := by
  have : (String.singleton c).toByteArray.data.toList = String.utf8EncodeChar c := by
    have := strBytes_eq_flatMap (String.singleton c)
    simpa [strBytes] using this
  rw [this]
  exact charC_dec_iff

/-- C17: everything else is an error, never a panic. -/
theorem C17_rejects (s : Bytes)
    (h : ∀ (c : Char) rest, s ≠ (String.singleton c).toByteArray.data.toList ++ rest) :
    ∃ e, ((Ty.char : Ty ι).codec cfg E).dec s = .err e := by
  cases hd : ((Ty.char : Ty ι).codec cfg E).dec s with
  | ok p => exact absurd ((C17_accepts_iff cfg E s p.2 p.1).1 hd) (h p.1 p.2)
  | err e => exact ⟨e, rfl⟩
  | panic => exact absurd hd (charC_panicFree.dec s)

/-- C17: the lead byte alone decides how many bytes are read. -/
theorem C17_lead_byte (b : UInt8) (s rest : Bytes) (c : Char)
    (h : ((Ty.char : Ty ι).codec cfg E).dec (b :: s) = .ok (c, rest)) :
    (b :: s).length - rest.length =
      if b.toNat < 0x80 then 1 else if b.toNat < 0xe0 then 2 else if b.toNat < 0xf0 then 3 else 4 := by
  have h' := charC_dec_iff.1 h
  obtain ⟨b', r', he, hl⟩ := utf8EncodeChar_cons c
  rw [he] at h'
  simp at h'
  obtain ⟨rfl, rfl⟩ := h'
  rw [charLen_eq] at hl
  simp only [List.length_cons, List.length_append]
  repeat' split at hl
  all_goals (repeat' split)
  all_goals omega

example (rest : Bytes) (c : Char)
    (h : ((Ty.char : Ty Empty).codec .default demoEnv).dec [0xe2, 0x82, 0xac, 7] = .ok (c, rest)) :
    4 - rest.length = 3 :=
  C17_lead_byte .default demoEnv 0xe2 [0x82, 0xac, 7] rest c h

example : ((Ty.char : Ty Empty).codec .default demoEnv).dec [0xe2, 0x82, 0xac, 7] = .ok ('€', [7]) :=
  (C17_accepts_iff _ _ _ _ _).2 (by decide +kernel)
example : ((Ty.char : Ty Empty).codec .default demoEnv).dec [0xed, 0xa0, 0x80] = .err .invalidChar := by
  decide +kernel

/-! ### C18: tags of sums -/

/-- C18: `Option<T>` decodes by its first byte. -/
theorem C18_option (t : Ty ι) (s : Bytes) :
    ((Ty.option t).codec cfg E).dec (0 :: s) = .ok (none, s) ∧
    (∀ v r, (t.codec cfg E).dec s = .ok (v, r) →
      ((Ty.option t).codec cfg E).dec (1 :: s) = .ok (some v, r)) ∧
    (∀ e, (t.codec cfg E).dec s = .err e → ((Ty.option t).codec cfg E).dec (1 :: s) = .err e) ∧
    (∀ b : UInt8, 2 ≤ b.toNat → ((Ty.option t).codec cfg E).dec (b :: s) = .err .deserialize ∧
      ((Ty.option t).codec cfg E).skip (b :: s) = .err .deserialize) := by
  have hd : ∀ b : UInt8, decInt cfg .u8 (b :: s) = .ok (BitVec.ofNat 8 b.toNat, s) := by
    intro b
    have := readLE_append (w := 8) (n := 1) [b] s rfl
    simpa [leVal, decInt] using this
  simp only [Ty.codec, optionC]
  refine ⟨?_, ?_, ?_, ?_⟩
  · rw [Rd.bind_of_ok (hd 0)]; rfl
  · intro v r h
    rw [Rd.bind_of_ok (hd 1), if_neg (by decide), if_pos (by decide), Rd.bind_of_ok h]; rfl
  · intro e h
    rw [Rd.bind_of_ok (hd 1), if_neg (by decide), if_pos (by decide), Rd.bind_of_err h]
  · intro b hb
    have hlt := b.toNat_lt
    have h0 : (BitVec.ofNat 8 b.toNat : BitVec IntTy.u8.bits) ≠ 0 := by
      intro h
      have := congrArg BitVec.toNat h
      simp at this
      omega
    have h1 : (BitVec.ofNat 8 b.toNat : BitVec IntTy.u8.bits) ≠ 1 := by
      intro h
      have := congrArg BitVec.toNat h
      simp at this
      omega
    constructor
    · rw [Rd.bind_of_ok (hd b), if_neg h0, if_neg h1]; rfl
    · rw [Rd.bind_of_ok (hd b), if_neg h0, if_neg h1]; rfl

/-- C18: `Result<T, E>` decodes by its `u32` tag (however that is encoded): 0 is `Ok`, 1 is `Err`,
anything else is refused, also by skip. -/
theorem C18_result (t e : Ty ι) (s s' : Bytes) (tag : BitVec 32)
    (ht : ((Ty.int .u32 : Ty ι).codec cfg E).dec s = .ok (tag, s')) :
    (∀ v r, ((Ty.result t e).codec cfg E).dec s = .ok (.ok v, r) ↔
      tag = 0 ∧ (t.codec cfg E).dec s' = .ok (v, r)) ∧
    (∀ v r, ((Ty.result t e).codec cfg E).dec s = .ok (.error v, r) ↔
      tag = 1 ∧ (e.codec cfg E).dec s' = .ok (v, r)) ∧
    (tag ≠ 0 → tag ≠ 1 → ((Ty.result t e).codec cfg E).dec s = .err .deserialize ∧
      ((Ty.result t e).codec cfg E).skip s = .err .deserialize) := by
  have hr : readU32 cfg s = .ok (tag.toNat, s') := by
    simp only [Ty.codec, intC, Codec.mirror] at ht
    rw [readU32, Rd.bind_of_ok ht]; rfl
  have e0 : tag.toNat = 0 ↔ tag = 0 := by
    constructor
    · intro h; exact BitVec.eq_of_toNat_eq (by simpa using h)
    · rintro rfl; rfl
  have e1 : tag.toNat = 1 ↔ tag = 1 := by
    constructor
    · intro h; exact BitVec.eq_of_toNat_eq (by simpa using h)
    · rintro rfl; rfl
  simp only [Ty.codec, resultC]
  rw [Rd.bind_of_ok hr, Rd.bind_of_ok hr]
  by_cases h0 : tag = 0
  · rw [if_pos (e0.2 h0)]
    refine ⟨?_, ?_, fun h => absurd h0 h⟩
    · intro v r
      simp only [Rd.bind_ok, Rd.mapErr_ok, Rd.pure_run]
      simp [h0]
    · intro v r
      simp only [Rd.bind_ok, Rd.mapErr_ok, Rd.pure_run]
      simp [h0]
  · rw [if_neg (by rw [e0]; exact h0)]
    by_cases h1 : tag = 1
    · rw [if_pos (e1.2 h1)]
      refine ⟨?_, ?_, fun _ h => absurd h1 h⟩
      · intro v r
        simp only [Rd.bind_ok, Rd.mapErr_ok, Rd.pure_run]
        simp [h1]
      · intro v r
        simp only [Rd.bind_ok, Rd.mapErr_ok, Rd.pure_run]
        simp [h1]
    · rw [if_neg (by rw [e1]; exact h1), if_neg (by rw [e0]; exact h0),
        if_neg (by rw [e1]; exact h1)]
      exact ⟨fun _ _ => ⟨fun h => by simp at h, fun h => absurd h.1 h0⟩,
        fun _ _ => ⟨fun h => by simp at h, fun h => absurd h.1 h1⟩, fun _ _ => ⟨rfl, rfl⟩⟩

example : ((Ty.result (.int .u8) .bool).codec .default demoEnv).dec [2, 1] = .err .deserialize :=
  ((C18_result .default demoEnv (.int .u8) .bool [2, 1] [1] 2 rfl).2.2 (by decide) (by decide)).1

/-- C18: `Bound<T>` decodes by its `u32` tag: 0 `Unbounded`, 1 `Included`, 2 `Excluded`, anything
else is refused, also by skip. -/
theorem C18_bound (t : Ty ι) (s s' : Bytes) (tag : BitVec 32)
    (ht : ((Ty.int .u32 : Ty ι).codec cfg E).dec s = .ok (tag, s')) :
    (∀ r, ((Ty.bound t).codec cfg E).dec s = .ok (.unbounded, r) ↔ tag = 0 ∧ s' = r) ∧
    (∀ v r, ((Ty.bound t).codec cfg E).dec s = .ok (.included v, r) ↔
      tag = 1 ∧ (t.codec cfg E).dec s' = .ok (v, r)) ∧
    (∀ v r, ((Ty.bound t).codec cfg E).dec s = .ok (.excluded v, r) ↔
      tag = 2 ∧ (t.codec cfg E).dec s' = .ok (v, r)) ∧
    (tag ≠ 0 → tag ≠ 1 → tag ≠ 2 → ((Ty.bound t).codec cfg E).dec s = .err .deserialize ∧
      ((Ty.bound t).codec cfg E).skip s = .err .deserialize) := by
  have hr : readU32 cfg s = .ok (tag.toNat, s') := by
    simp only [Ty.codec, intC, Codec.mirror] at ht
    rw [readU32, Rd.bind_of_ok ht]; rfl
  have en : ∀ n : Nat, n < 2 ^ 32 → (tag.toNat = n ↔ tag = BitVec.ofNat 32 n) := by
    intro n hn
    constructor
    · intro h; exact BitVec.eq_of_toNat_eq (by simp [h]; omega)
    · rintro rfl; simp; omega
  have e0 := en 0 (by decide)
  have e1 := en 1 (by decide)
  have e2 := en 2 (by decide)
  simp only [Ty.codec, boundC]
  rw [Rd.bind_of_ok hr, Rd.bind_of_ok hr]
  by_cases h0 : tag = 0
  · rw [if_pos (e0.2 h0), if_pos (e0.2 h0)]
    refine ⟨?_, ?_, ?_, fun h => absurd h0 h⟩
    · intro r; simp [h0]
    · intro v r; simp [h0]
    · intro v r; simp [h0]
  · have n0 : ¬ tag.toNat = 0 := by rw [e0]; exact h0
    rw [if_neg n0, if_neg n0]
    by_cases h1 : tag = 1
    · rw [if_pos (e1.2 h1), if_pos (e1.2 h1)]
      refine ⟨?_, ?_, ?_, fun _ h => absurd h1 h⟩
      · intro r; simp only [Rd.bind_ok, Rd.mapErr_ok, Rd.pure_run]; simp [h1]
      · intro v r; simp only [Rd.bind_ok, Rd.mapErr_ok, Rd.pure_run]; simp [h1]
      · intro v r; simp only [Rd.bind_ok, Rd.mapErr_ok, Rd.pure_run]; simp [h1]
    · have n1 : ¬ tag.toNat = 1 := by rw [e1]; exact h1
      rw [if_neg n1, if_neg n1]
      by_cases h2 : tag = 2
      · rw [if_pos (e2.2 h2), if_pos (e2.2 h2)]
        refine ⟨?_, ?_, ?_, fun _ _ h => absurd h2 h⟩
        · intro r; simp only [Rd.bind_ok, Rd.mapErr_ok, Rd.pure_run]; simp [h2]
        · intro v r; simp only [Rd.bind_ok, Rd.mapErr_ok, Rd.pure_run]; simp [h2]
        · intro v r; simp only [Rd.bind_ok, Rd.mapErr_ok, Rd.pure_run]; simp [h2]
      · have n2 : ¬ tag.toNat = 2 := by rw [e2]; exact h2
        rw [if_neg n2, if_neg n2]
        exact ⟨fun _ => ⟨fun h => by simp at h, fun h => absurd h.1 h0⟩,
          fun _ _ => ⟨fun h => by simp at h, fun h => absurd h.1 h1⟩,
          fun _ _ => ⟨fun h => by simp at h, fun h => absurd h.1 h2⟩, fun _ _ _ => ⟨rfl, rfl⟩⟩

example : ((Ty.bound (.int .u8)).codec .default demoEnv).dec [2, 9] = .ok (.excluded 9, []) :=
  ((C18_bound .default demoEnv (.int .u8) [2, 9] [9] 2 rfl).2.2.1 9 []).2 ⟨rfl, rfl⟩

example : ((Ty.result (.int .u8) .bool).codec .default demoEnv).dec [1, 1] = .ok (.error true, []) := by
  rfl
example : ((Ty.bound (.int .u8)).codec .default demoEnv).dec [3, 1] = .err .deserialize := by rfl

/-! ### C19–C21: maps and sets -/

/-- C19: whatever bytes a `BTreeMap` is decoded from, reading the same bytes as a list of pairs
gives the entries on the wire, in any order and with any repetitions, and the map is strictly
sorted and gives each key the value (and key) of its last occurrence. -/
theorem C19_last_occurrence (hE : E.Lawful) (k v : Ty ι) (s rest : Bytes)
    (m : List (k.denote E.X × v.denote E.X))
    (h : ((Ty.btreeMap k v).codec cfg E).dec s = .ok (m, rest)) :
    ∃ wire, ((Ty.vec (.pair k v)).codec cfg E).dec s = .ok (wire, rest) ∧
      m.Pairwise (fun a b => E.cmp k a.1 b.1 = .lt) ∧
      ∀ key, (m.find? fun e => E.cmp k e.1 key == .eq) =
        (wire.reverse.find? fun e => E.cmp k e.1 key == .eq) := by
  have := hE.trans k
  obtain ⟨l, h1, rfl⟩ := coll_wire cfg h
  refine ⟨l, h1, ?_, fun key => ?_⟩
  · have := btreeBuild_strict (E.cmp k) Prod.fst l
    simpa only [StrictAsc, List.pairwise_map] using this
  · rw [reverse_find]
    exact btreeBuild_find (E.cmp k) Prod.fst l key

example (m : List (BitVec 8 × Bool)) (rest : Bytes)
    (h : ((Ty.btreeMap (.int .u8) .bool).codec .default demoEnv).dec [3, 9, 1, 2, 0, 9, 0] = .ok (m, rest)) :
    (m.find? fun e => demoEnv.cmp (.int .u8) e.1 9 == .eq) = some (9, false) := by
  obtain ⟨wire, hw, -, hf⟩ := C19_last_occurrence .default demoEnv demoEnv_lawful (.int .u8) .bool _ rest m h
  obtain ⟨rfl, rfl⟩ : wire = [(9, true), (2, false), (9, false)] ∧ rest = [] := by
    have e : ((Ty.vec (.pair (.int .u8) .bool)).codec .default demoEnv).dec [3, 9, 1, 2, 0, 9, 0]
      = .ok ([(9, true), (2, false), (9, false)], []) := rfl
    rw [e] at hw
    simp only [Res.ok.injEq, Prod.mk.injEq] at hw
    exact ⟨hw.1.symm, hw.2.symm⟩
  rw [hf 9]; rfl

/-- C19: and conversely every readable list of pairs is readable as a map. -/
theorem C19_any_order (hcap : ∀ t, E.cap t 0 = true) (k v : Ty ι) (s rest : Bytes)
    (wire : List (k.denote E.X × v.denote E.X))
    (h : ((Ty.vec (.pair k v)).codec cfg E).dec s = .ok (wire, rest)) :
    ∃ m, ((Ty.btreeMap k v).codec cfg E).dec s = .ok (m, rest) :=
  ⟨_, coll_of_wire cfg (hcap _) h⟩

example : ∃ m, ((Ty.btreeMap (.int .u8) .bool).codec .default demoEnv).dec [3, 9, 1, 2, 0, 9, 0] =
    .ok (m, []) :=
  C19_any_order .default demoEnv (fun _ => rfl) (.int .u8) .bool _ [] [(9, true), (2, false), (9, false)]
    rfl

/-- C19: a serialised map decodes to itself. -/
theorem C19_round_trip (hE : E.Lawful) (k v : Ty ι) (m : List (k.denote E.X × v.denote E.X))
    (h1 : (Ty.btreeMap k v).WF E m) (h2 : (Ty.btreeMap k v).Fits E m) :
    ∃ b, ((Ty.btreeMap k v).codec cfg E).toVec m = .ok b ∧
      ((Ty.btreeMap k v).codec cfg E).fromSlice b = .ok m :=
  C05_round_trip cfg E hE (.btreeMap k v) m h1 h2

example : ∃ b, ((Ty.btreeMap (.int .u8) .bool).codec .default demoEnv).toVec [(2, false), (9, true)] = .ok b ∧
    ((Ty.btreeMap (.int .u8) .bool).codec .default demoEnv).fromSlice b = .ok [(2, false), (9, true)] :=
  C19_round_trip .default demoEnv demoEnv_lawful (.int .u8) .bool _
    ⟨fun _ _ => ⟨trivial, trivial⟩, by
      simp only [List.pairwise_cons, List.mem_cons, List.not_mem_nil, or_false, forall_eq]
      exact ⟨by decide, by simp⟩⟩
    (by simp [Ty.Fits, demoEnv])

/-- Out of order and with a repetition: keys 9, 2, 9. -/
example : ((Ty.vec (.pair (.int .u8) .bool)).codec .default demoEnv).dec [3, 9, 1, 2, 0, 9, 0]
    = .ok ([(9, true), (2, false), (9, false)], []) := by rfl

/-- C20: whatever bytes a `BTreeSet` is decoded from, it is strictly sorted and contains exactly
the elements on the wire (up to the type's own notion of equality). -/
theorem C20_same_elements (hE : E.Lawful) (k : Ty ι) (s rest : Bytes) (m : List (k.denote E.X))
    (h : ((Ty.btreeSet k).codec cfg E).dec s = .ok (m, rest)) :
    ∃ wire, (vecC cfg (E.cap k) (k.codec cfg E)).dec s = .ok (wire, rest) ∧
      m.Pairwise (fun a b => E.cmp k a b = .lt) ∧
      (∀ x ∈ m, x ∈ wire) ∧ (∀ x ∈ wire, ∃ y ∈ m, E.cmp k y x = .eq) := by
  have := hE.trans k
  obtain ⟨l, h1, rfl⟩ := coll_wire cfg h
  refine ⟨l, h1, ?_, fun x hx => btreeBuild_mem _ _ hx, fun x hx => ?_⟩
  · have := btreeBuild_strict (E.cmp k) id l
    simpa [StrictAsc] using this
  · have hf := btreeBuild_find (E.cmp k) id l x
    have hx' : x ∈ l.filter (fun a => E.cmp k (id a) x == .eq) := by
      simp [hx, Std.ReflCmp.compare_self (cmp := E.cmp k)]
    cases hg : (l.filter (fun a => E.cmp k (id a) x == .eq)).getLast? with
    | none =>
      rw [List.getLast?_eq_none_iff] at hg
      rw [hg] at hx'
      simp at hx'
    | some y =>
      rw [hg] at hf
      exact ⟨y, List.mem_of_find?_eq_some hf, by simpa using List.find?_some hf⟩

example (m : List (BitVec 8)) (rest : Bytes)
    (h : ((Ty.btreeSet (.int .u8)).codec .default demoEnv).dec [3, 9, 2, 9] = .ok (m, rest)) :
    ∃ y ∈ m, demoEnv.cmp (.int .u8) y 2 = .eq := by
  obtain ⟨wire, hw, -, -, hf⟩ := C20_same_elements .default demoEnv demoEnv_lawful (.int .u8) _ rest m h
  have e : (vecC .default (demoEnv.cap (.int .u8)) ((Ty.int .u8 : Ty Empty).codec .default demoEnv)).dec [3, 9, 2, 9]
    = .ok ([9, 2, 9], []) := rfl
  rw [e] at hw
  simp only [Res.ok.injEq, Prod.mk.injEq] at hw
  exact hf 2 (by rw [← hw.1]; simp)

/-- C20: a serialised set decodes to itself. -/
theorem C20_round_trip (hE : E.Lawful) (k : Ty ι) (m : List (k.denote E.X))
    (h1 : (Ty.btreeSet k).WF E m) (h2 : (Ty.btreeSet k).Fits E m) :
    ∃ b, ((Ty.btreeSet k).codec cfg E).toVec m = .ok b ∧
      ((Ty.btreeSet k).codec cfg E).fromSlice b = .ok m :=
  C05_round_trip cfg E hE (.btreeSet k) m h1 h2

example : ∃ b, ((Ty.btreeSet (.int .i32)).codec .default demoEnv).toVec [BitVec.ofInt 32 (-5), 0, 7] = .ok b ∧
    ((Ty.btreeSet (.int .i32)).codec .default demoEnv).fromSlice b = .ok [BitVec.ofInt 32 (-5), 0, 7] :=
  C20_round_trip .default demoEnv demoEnv_lawful (.int .i32) _
    ⟨fun _ _ => trivial, by
      simp only [List.pairwise_cons, List.mem_cons, List.not_mem_nil, or_false, forall_eq_or_imp, forall_eq]
      exact ⟨⟨by decide, by decide⟩, by decide, by simp⟩⟩
    (by simp [Ty.Fits, demoEnv])

example : (Ty.btreeSet (.int .i32)).WF demoEnv [BitVec.ofInt 32 (-5), 0, 7] := by
  refine ⟨fun _ _ => trivial, ?_⟩
  simp only [List.pairwise_cons, List.mem_cons, List.not_mem_nil, or_false, forall_eq_or_imp,
    forall_eq]
  exact ⟨⟨by decide, by decide⟩, by decide, by simp⟩

/-- C21: a hash map with entries `m`, iterated in any order `it`, decodes to a map with the same
entries. -/
theorem C21_any_iteration_order (hE : E.Lawful) (hsymm : ∀ t a b, E.eq t a b = E.eq t b a)
    (k v : Ty ι) (m it : List (k.denote E.X × v.denote E.X))
    (h1 : (Ty.hashMap k v).WF E m) (h2 : (Ty.hashMap k v).Fits E m) (hp : it.Perm m) :
    ∃ b, ((Ty.hashMap k v).codec cfg E).toVec it = .ok b ∧
      ∀ rest, ∃ m', ((Ty.hashMap k v).codec cfg E).dec (b ++ rest) = .ok (m', rest) ∧ m'.Perm m := by
  have hw : (Ty.hashMap k v).WF E it := by
    refine ⟨fun e he => h1.1 e (hp.subset he), ?_⟩
    refine hp.symm.pairwise h1.2 ?_
    intro a b h
    rw [hsymm]
    exact h
  have hf : (Ty.hashMap k v).Fits E it := by
    refine ⟨by rw [hp.length_eq]; exact h2.1, by rw [hp.length_eq]; exact h2.2.1,
      fun e he => h2.2.2 e (hp.subset he)⟩
  obtain ⟨b, hb, hd⟩ := C06_framing cfg E hE (.hashMap k v) it hw hf
  exact ⟨b, hb, fun rest => ⟨it, hd rest, hp⟩⟩

example : ∃ b, ((Ty.hashMap (.int .u8) .bool).codec .default demoEnv).toVec [(1, false), (3, true)] = .ok b ∧
    ∀ rest, ∃ m', ((Ty.hashMap (.int .u8) .bool).codec .default demoEnv).dec (b ++ rest) = .ok (m', rest) ∧
      m'.Perm [(3, true), (1, false)] :=
  C21_any_iteration_order .default demoEnv demoEnv_lawful demoEnv_eq_symm (.int .u8) .bool _ _
    ⟨fun _ _ => ⟨trivial, trivial⟩, by
      simp only [List.pairwise_cons, List.mem_cons, List.not_mem_nil, or_false, forall_eq]
      exact ⟨by decide, by simp⟩⟩
    (by simp [Ty.Fits, demoEnv]) (List.Perm.swap _ _ _)

/-- C21: a hash set with elements `m`, iterated in any order `it`, decodes to a set with the same
elements. -/
theorem C21_set_any_iteration_order (hE : E.Lawful) (hsymm : ∀ t a b, E.eq t a b = E.eq t b a)
    (k : Ty ι) (m it : List (k.denote E.X))
    (h1 : (Ty.hashSet k).WF E m) (h2 : (Ty.hashSet k).Fits E m) (hp : it.Perm m) :
    ∃ b, ((Ty.hashSet k).codec cfg E).toVec it = .ok b ∧
      ∀ rest, ∃ m', ((Ty.hashSet k).codec cfg E).dec (b ++ rest) = .ok (m', rest) ∧ m'.Perm m := by
  have hw : (Ty.hashSet k).WF E it := by
    refine ⟨fun e he => h1.1 e (hp.subset he), ?_⟩
    refine hp.symm.pairwise h1.2 ?_
    intro a b h
    rw [hsymm]
    exact h
  have hf : (Ty.hashSet k).Fits E it := by
    refine ⟨by rw [hp.length_eq]; exact h2.1, by rw [hp.length_eq]; exact h2.2.1,
      fun e he => h2.2.2 e (hp.subset he)⟩
  obtain ⟨b, hb, hd⟩ := C06_framing cfg E hE (.hashSet k) it hw hf
  exact ⟨b, hb, fun rest => ⟨it, hd rest, hp⟩⟩

example : ∃ b, ((Ty.hashSet (.int .u8)).codec .default demoEnv).toVec [1, 3] = .ok b ∧
    ∀ rest, ∃ m', ((Ty.hashSet (.int .u8)).codec .default demoEnv).dec (b ++ rest) = .ok (m', rest) ∧
      m'.Perm [3, 1] :=
  C21_set_any_iteration_order .default demoEnv demoEnv_lawful demoEnv_eq_symm (.int .u8) _ _
    ⟨fun _ _ => trivial, by
      simp only [List.pairwise_cons, List.mem_cons, List.not_mem_nil, or_false, forall_eq]
      exact ⟨by decide, by simp⟩⟩
    (by simp [Ty.Fits, demoEnv]) (List.Perm.swap _ _ _)

/-- C21: whatever bytes a `HashSet` is decoded from, it has no equal elements and exactly the elements
on the wire, up to equality. -/
theorem C21_set_same_elements (k : Ty ι) (hrefl : ∀ a, E.eq k a a = true)
    (s rest : Bytes) (m : List (k.denote E.X))
    (h : ((Ty.hashSet k).codec cfg E).dec s = .ok (m, rest)) :
    ∃ wire, (vecC cfg (E.cap k) (k.codec cfg E)).dec s = .ok (wire, rest) ∧
      m.Pairwise (fun a b => E.eq k a b = false) ∧
      (∀ x ∈ m, x ∈ wire) ∧ (∀ x ∈ wire, ∃ y ∈ m, E.eq k y x = true) := by
  obtain ⟨l, h1, rfl⟩ := coll_wire cfg h
  refine ⟨l, h1, hashSet_foldl_inv l [] (by simp [DistinctKeys]), fun x hx => ?_, fun x hx => ?_⟩
  · simpa using hashSet_foldl_mem l [] x hx
  · exact hashSet_foldl_has hrefl l [] x (.inr hx)

example : ∃ wire, (vecC .default (demoEnv.cap (.int .u8)) ((Ty.int .u8 : Ty Empty).codec .default demoEnv)).dec
    [3, 9, 2, 9] = .ok (wire, []) :=
  let ⟨w, h, _⟩ := C21_set_same_elements .default demoEnv (.int .u8) (demoEnv_eq_refl _)
    [3, 9, 2, 9] [] [9, 2] rfl
  ⟨w, h⟩

/-- C21: whatever bytes a `HashMap` is decoded from, each key has the value of its last occurrence
on the wire. -/
theorem C21_last_occurrence (k v : Ty ι) (hsymm : ∀ a b, E.eq k a b = E.eq k b a)
    (htrans : ∀ a b c, E.eq k a b = true → E.eq k b c = true → E.eq k a c = true)
    (s rest : Bytes) (m : List (k.denote E.X × v.denote E.X))
    (h : ((Ty.hashMap k v).codec cfg E).dec s = .ok (m, rest)) :
    ∃ wire, ((Ty.vec (.pair k v)).codec cfg E).dec s = .ok (wire, rest) ∧
      ∀ key, (m.find? fun e => E.eq k e.1 key).map Prod.snd =
        (wire.reverse.find? fun e => E.eq k e.1 key).map Prod.snd := by
  obtain ⟨l, h1, rfl⟩ := coll_wire cfg h
  refine ⟨l, h1, fun key => ?_⟩
  have := hash_foldl_find hsymm htrans l key []
  simpa using this

example : ∃ wire, ((Ty.vec (.pair (.int .u8) .bool)).codec .default demoEnv).dec [3, 9, 1, 2, 0, 9, 0] =
    .ok (wire, []) :=
  let ⟨w, h, _⟩ := C21_last_occurrence .default demoEnv (.int .u8) .bool (demoEnv_eq_symm _)
    (fun a b c h1 h2 => by
      have e1 : a = b := beq_iff_eq.1 (show (a == b) = true from h1)
      subst e1; exact h2)
    [3, 9, 1, 2, 0, 9, 0] [] [(9, false), (2, false)] rfl
  ⟨w, h⟩

example : (Ty.hashMap (.int .u8) .bool).WF demoEnv [(3, true), (1, false)] :=
  ⟨fun _ _ => ⟨trivial, trivial⟩, by
    simp only [List.pairwise_cons, List.mem_cons, List.not_mem_nil, or_false, forall_eq]
    exact ⟨by decide, by simp⟩⟩

/-! ### C62: durations and times -/

/-- C62: decoding a `Duration` from its seconds and nanoseconds gives the same total time with the
nanoseconds normalised, and panics exactly when the seconds overflow. -/
theorem C62_duration_decode (secs : BitVec 64) (nanos : BitVec 32) (rest : Bytes) :
    let r := ((Ty.duration : Ty ι).codec cfg E).dec
      (encInt cfg .u64 secs ++ (encInt cfg .u32 nanos ++ rest))
    if secs.toNat + nanos.toNat / 1000000000 < 2 ^ 64 then
      ∃ s n, r = .ok ((s, n), rest) ∧ n.toNat < 1000000000 ∧
        s.toNat * 1000000000 + n.toNat = secs.toNat * 1000000000 + nanos.toNat
    else r = .panic := by
  have hs := secs.isLt
  have hn := nanos.isLt
  simp only [Ty.codec, durationC, Codec.mirror]
  rw [Rd.bind_of_ok (decInt_encInt cfg .u64 secs _), Rd.bind_of_ok (decInt_encInt cfg .u32 nanos _)]
  unfold durationNew
  by_cases h1 : nanos.toNat < 1000000000
  · rw [if_pos h1, if_pos (by omega)]
    exact ⟨secs, nanos, rfl, h1, rfl⟩
  · rw [if_neg h1]
    dsimp only
    split
    · refine ⟨_, _, rfl, ?_, ?_⟩
      · simp; omega
      · simp; omega
    · rfl

/-- C62: `Duration` and `SystemTime` round-trip. -/
theorem C62_round_trip (hE : E.Lawful) (s : BitVec 64) (n : BitVec 32)
    (hn : n.toNat < 1000000000) :
    (∃ b, ((Ty.duration : Ty ι).codec cfg E).toVec (s, n) = .ok b ∧
      ((Ty.duration : Ty ι).codec cfg E).fromSlice b = .ok (s, n)) ∧
    (0 ≤ s.toInt → ∃ b, ((Ty.systemTime : Ty ι).codec cfg E).toVec (s, n) = .ok b ∧
      ((Ty.systemTime : Ty ι).codec cfg E).fromSlice b = .ok (s, n)) :=
  ⟨C05_round_trip cfg E hE .duration (s, n) hn trivial,
   fun h => C05_round_trip cfg E hE .systemTime (s, n) ⟨h, hn⟩ trivial⟩

example : ∃ b, ((Ty.systemTime : Ty Empty).codec .default demoEnv).toVec (1700000000, 999999999) = .ok b ∧
    ((Ty.systemTime : Ty Empty).codec .default demoEnv).fromSlice b = .ok (1700000000, 999999999) :=
  (C62_round_trip .default demoEnv demoEnv_lawful 1700000000 999999999 (by decide)).2 (by decide)

/-- C62: a time before the epoch cannot be written. -/
theorem C62_pre_epoch (s : BitVec 64) (n : BitVec 32) (h : s.toInt < 0) :
    ((Ty.systemTime : Ty ι).codec cfg E).toVec (s, n) = .err .serialize := by
  simp [Codec.toVec, Ty.codec, systemTimeC, h]

example : ((Ty.systemTime : Ty Empty).codec .default demoEnv).toVec (BitVec.ofInt 64 (-1), 0) = .err .serialize :=
  C62_pre_epoch .default demoEnv (BitVec.ofInt 64 (-1)) 0 (by decide)

example : ((Ty.duration : Ty Empty).codec .default demoEnv).dec [5, 252, 0, 47, 104, 89]
    = .ok ((6, 500000000), []) := by rfl

/-! ### C64: binary heaps -/

/-- C64: whatever bytes a `BinaryHeap` is decoded from, it holds exactly the elements on the wire
(as a multiset) and its first element is a greatest one. -/
theorem C64_heap (hE : E.Lawful) (t : Ty ι) (s rest : Bytes) (m : List (t.denote E.X))
    (h : ((Ty.binaryHeap t).codec cfg E).dec s = .ok (m, rest)) :
    ∃ wire, (vecC cfg (E.cap t) (t.codec cfg E)).dec s = .ok (wire, rest) ∧ m.Perm wire ∧
      ∀ top, m.head? = some top → ∀ x ∈ m, (E.cmp t x top).isLE = true := by
  have := hE.trans t
  have hw := C12_decoded_well_formed cfg E hE _ _ _ _ h
  obtain ⟨l, h1, rfl⟩ := coll_wire cfg h
  refine ⟨l, h1, by simpa using heap_foldl_perm (E.cmp t) l [], ?_⟩
  intro top htop x hx
  have hshape := hw.2
  generalize hm : l.foldl (heapPush (E.cmp t)) [] = m at *
  obtain ⟨i, hi, rfl⟩ := List.getElem_of_mem hx
  have htop' : m[0]'(by omega) = top := by
    cases m with
    | nil => simp at hi
    | cons a m => simpa using htop
  clear hx
  induction i using Nat.strongRecOn with
  | ind i ih =>
    by_cases h0 : i = 0
    · subst h0
      rw [htop']
      simp [Std.ReflCmp.compare_self (cmp := E.cmp t)]
    · exact Std.TransCmp.isLE_trans (hshape i hi (by omega)) (ih ((i - 1) / 2) (by omega) (by omega) htop')

example : ∃ wire, (vecC .default (demoEnv.cap (.int .u8)) ((Ty.int .u8 : Ty Empty).codec .default demoEnv)).dec
    [3, 1, 9, 4] = .ok (wire, []) ∧ [9, 1, 4].Perm wire :=
  let ⟨w, h1, h2, _⟩ := C64_heap .default demoEnv demoEnv_lawful (.int .u8) [3, 1, 9, 4] [] [9, 1, 4] (by
    simp [Ty.codec, binaryHeapC, collC, readColl, demoEnv]
    decide +kernel)
  ⟨w, h1, h2⟩

example : ((Ty.binaryHeap (.int .u8)).codec .default demoEnv).dec [3, 1, 9, 4] =
    .ok ([9, 1, 4], []) := by
  simp [Ty.codec, binaryHeapC, collC, readColl, demoEnv]
  decide +kernel

end Revision
