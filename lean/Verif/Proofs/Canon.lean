import Verif.Spec.Canon
import Verif.Proofs.Size
import Verif.Proofs.StreamErr
import Verif.Proofs.Coll
import Verif.Proofs.Entries
import Verif.Proofs.Walk

/-! Helper lemmas: writing what was read. -/

namespace Revision

/-- A relation between the bytes written, the input and what reading left of it, that holds part by part. -/
structure Joins (R : Bytes → Bytes → Bytes → Prop) : Prop where
  nil : ∀ s, R [] s s
  app : ∀ {b b' s t r}, R b s t → R b' t r → R (b ++ b') s r
  same : ∀ b r, R b (b ++ r) r

/-- Every value read can be written, with bytes related to the input by `R`. -/
def Again (R : Bytes → Bytes → Bytes → Prop) (m : Rd α) (enc : α → Res Bytes) : Prop :=
  ∀ s v r, m s = .ok (v, r) → ∃ b, enc v = .ok b ∧ R b s r

/-- `Q` holds between the bytes read and those written. -/
def Over (Q : Bytes → Bytes → Prop) (b s r : Bytes) : Prop := ∃ u, s = u ++ r ∧ Q u b

abbrev NotLonger := Over NeverLonger
abbrev SameOrLess := Over SameOrShorter
abbrev Same := Over SameBytes

theorem Over.parts {Q : Bytes → Bytes → Prop} (hr : ∀ b, Q b b)
    (ha : ∀ u u' b b', Q u b → Q u' b' → Q (u ++ u') (b ++ b')) : Joins (Over Q) where
  nil s := ⟨[], rfl, hr _⟩
  app := by
    rintro b b' _ _ r ⟨u, rfl, h⟩ ⟨u', rfl, h'⟩
    exact ⟨u ++ u', by simp, ha _ _ _ _ h h'⟩
  same b r := ⟨b, rfl, hr b⟩

theorem NotLonger.parts : Joins NotLonger :=
  Over.parts (fun _ => Nat.le_refl _) fun _ _ _ _ h h' => by
    simp only [NeverLonger, List.length_append] at *; omega

theorem Same.parts : Joins Same :=
  Over.parts (fun _ => rfl) fun _ _ _ _ h h' => by rw [h, h']; rfl

theorem SameOrLess.parts : Joins SameOrLess :=
  Over.parts (fun _ => .inl rfl) fun _ _ _ _ h h' => by
    rcases h with rfl | h
    · rcases h' with rfl | h'
      · exact .inl rfl
      · exact .inr (by simp only [List.length_append] at *; omega)
    · rcases h' with rfl | h'
      · exact .inr (by simp only [List.length_append] at *; omega)
      · exact .inr (by simp only [List.length_append] at *; omega)

theorem Over.mono {Q Q' : Bytes → Bytes → Prop} (h : ∀ u b, Q u b → Q' u b) {b s r : Bytes} (hQ : Over Q b s r) :
    Over Q' b s r := by
  obtain ⟨u, h1, h2⟩ := hQ
  exact ⟨u, h1, h _ _ h2⟩

theorem NotLonger.less {b b' s r : Bytes} (h : NotLonger b s r) (hb : b'.length ≤ b.length) : NotLonger b' s r := by
  obtain ⟨u, h1, h2⟩ := h
  exact ⟨u, h1, Nat.le_trans hb h2⟩

theorem again_iff {Q : Bytes → Bytes → Prop} {c : Codec α} : Again (Over Q) c.dec c.enc ↔ c.Rewrites Q := by
  constructor
  · intro h s v r hd
    obtain ⟨b, h1, u, h2, h3⟩ := h s v r hd
    exact ⟨u, b, h2, h1, h3⟩
  · intro h s v r hd
    obtain ⟨u, b, h2, h1, h3⟩ := h s v r hd
    exact ⟨b, h1, u, h2, h3⟩

variable {R : Bytes → Bytes → Bytes → Prop}

theorem readExact_split {n : Nat} {s a r : Bytes} (h : Rd.readExact n s = .ok (a, r)) : s = a ++ r ∧ a.length = n := by
  simp only [Rd.readExact] at h
  split at h
  · simp at h
    obtain ⟨rfl, rfl⟩ := h
    exact ⟨(List.take_append_drop _ _).symm, by simp; omega⟩
  · simp at h

theorem readByte_split {s r : Bytes} {a : UInt8} (h : Rd.readByte s = .ok (a, r)) : s = a :: r := by
  cases s with
  | nil => cases h
  | cons b t =>
    have h : Res.ok (b, t) = .ok (a, r) := h
    simp at h
    obtain ⟨rfl, rfl⟩ := h
    rfl

theorem readLE_split {W w : Nat} (hW : 8 * w ≤ W) {s r : Bytes} {v : BitVec W} (h : readLE W w s = .ok (v, r)) :
    s = leBytes w v.toNat ++ r := by
  obtain ⟨b, h1, rfl⟩ := bind_pure_ok.1 h
  obtain ⟨rfl, hl⟩ := readExact_split h1
  have := leVal_lt b
  rw [hl, pow256] at this
  have h5 : 2 ^ (8 * w) ≤ 2 ^ W := Nat.pow_le_pow_right (by decide) hW
  rw [BitVec.toNat_ofNat, Nat.mod_eq_of_lt (by omega)]
  conv => rhs; rw [← hl, leBytes_leVal]

theorem readLE_again (hR : Joins R) {W w : Nat} (hW : 8 * w ≤ W) :
    Again R (readLE W w) fun v => .ok (leBytes w v.toNat) := by
  intro s v r h
  have := readLE_split hW h
  subst this
  exact ⟨_, rfl, hR.same _ _⟩

/-! ### Integers -/

/-- Numbers written with a fixed width, and single bytes, have one encoding. -/
theorem decInt_same {cfg : Cfg} (k : IntTy) (hk : cfg.fixedWidth = true ∨ ¬ k.IsVar) {s r : Bytes} {v : BitVec k.bits}
    (h : decInt cfg k s = .ok (v, r)) : s = encInt cfg k v ++ r := by
  have hf : k.IsVar → cfg.fixedWidth = true := fun h => hk.resolve_right (fun h' => h' h)
  have nar : ∀ (w n : Nat), 8 * n = w → 0 < w → w ≤ 64 → (∀ x : BitVec 64, -(2 ^ (w - 1) : Int) ≤ x.toInt ∧
      x.toInt < 2 ^ (w - 1) → (x.setWidth w).toInt = x.toInt) → ∀ x : BitVec 64, readLE 64 n s = .ok (x, r) →
      (zigzag (((gazgiz x).setWidth w).signExtend 64)).toNat = x.toNat := by
    intro w n hn hw hw64 hsw x hx
    obtain ⟨b, h1, rfl⟩ := bind_pure_ok.1 hx
    obtain ⟨rfl, hl⟩ := readExact_split h1
    have hlt := leVal_lt b
    rw [hl, pow256, hn] at hlt
    have h5 : 2 ^ w ≤ 2 ^ 64 := Nat.pow_le_pow_right (by decide) hw64
    have hx : (BitVec.ofNat 64 (leVal b)).toNat = leVal b := by
      rw [BitVec.toNat_ofNat, Nat.mod_eq_of_lt (by omega)]
    have hg := gazgiz_toInt (by decide) (BitVec.ofNat 64 (leVal b))
    rw [hx] at hg
    have hr := (gazgizSpec_range (n := leVal b) hw).2 hlt
    rw [zigzag_toNat (by decide), signExtend_toInt hw64, hsw _ (by rw [hg]; exact hr), hg, zigzagSpec_gazgizSpec, hx]
  cases k <;> simp only [encInt, decInt, IntTy.bits] at *
  case u8 | i8 => exact readLE_split (by decide) h
  all_goals rw [if_pos (hf (by decide))] at h ⊢
  case u16 | u32 | u64 | u128 | usize => exact readLE_split (by decide) h
  case i16 =>
    obtain ⟨x, h1, rfl⟩ := bind_pure_ok.1 h
    rw [nar _ _ rfl (by decide) (by decide) setWidth16_toInt x h1]
    exact readLE_split (by decide) h1
  case i32 =>
    obtain ⟨x, h1, rfl⟩ := bind_pure_ok.1 h
    rw [nar _ _ rfl (by decide) (by decide) setWidth32_toInt x h1]
    exact readLE_split (by decide) h1
  all_goals
    obtain ⟨x, h1, rfl⟩ := bind_pure_ok.1 h
    rw [zigzag_gazgiz (by decide)]
    exact readLE_split (by decide) h1

/-- The five ways to write a number. -/
theorem decodeU128_forms {s r : Bytes} {x : BitVec 128} (h : decodeU128 s = .ok (x, r)) :
    s = UInt8.ofNat x.toNat :: r ∨ s = 251 :: leBytes 2 x.toNat ++ r ∨ s = 252 :: leBytes 4 x.toNat ++ r ∨
      s = 253 :: leBytes 8 x.toNat ++ r ∨ s = 254 :: leBytes 16 x.toNat ++ r := by
  obtain ⟨b, t, h1, h2⟩ := Rd.bind_ok.1 h
  have := readByte_split h1
  subst this
  split at h2
  · rename_i hb; subst hb
    exact .inr (.inl (congrArg _ (readLE_split (by decide) h2)))
  split at h2
  · rename_i hb; subst hb
    exact .inr (.inr (.inl (congrArg _ (readLE_split (by decide) h2))))
  split at h2
  · rename_i hb; subst hb
    exact .inr (.inr (.inr (.inl (congrArg _ (readLE_split (by decide) h2)))))
  split at h2
  · rename_i hb; subst hb
    exact .inr (.inr (.inr (.inr (congrArg _ (readLE_split (by decide) h2)))))
  split at h2
  · cases h2
  · have h2 : Res.ok (BitVec.ofNat 128 b.toNat, t) = .ok (x, r) := h2
    injection h2 with h2
    injection h2 with h2 h3
    subst h2; subst h3
    left
    have := b.toNat_lt
    rw [BitVec.toNat_ofNat, Nat.mod_eq_of_lt (by omega)]
    simp

/-- Of the encodings of a number, one has its length. -/
theorem decodeU128_inj {s s' r : Bytes} {x : BitVec 128} (h : decodeU128 s = .ok (x, r))
    (h' : decodeU128 s' = .ok (x, r)) (hl : s.length = s'.length) : s = s' := by
  rcases decodeU128_forms h with rfl | rfl | rfl | rfl | rfl <;>
    rcases decodeU128_forms h' with rfl | rfl | rfl | rfl | rfl <;> first | rfl | (simp at hl)

theorem decInt_sameOrLess {cfg : Cfg} (k : IntTy) {s r : Bytes} {v : BitVec k.bits}
    (h : decInt cfg k s = .ok (v, r)) : SameOrLess (encInt cfg k v) s r := by
  by_cases hk : cfg.fixedWidth = true ∨ ¬ k.IsVar
  · exact ⟨_, decInt_same k hk h, .inl rfl⟩
  · have hc : cfg.fixedWidth = false := by
      cases hc : cfg.fixedWidth with
      | false => rfl
      | true => exact absurd (.inl hc) hk
    have hv : k.IsVar := Classical.byContradiction fun h => hk (.inr h)
    obtain ⟨u, rfl, -, -⟩ := decInt_framed cfg k _ _ _ h
    obtain ⟨x, h1, -, h3, -⟩ := (decInt_ok_iff hc hv).1 h
    obtain ⟨x', h1', -, h3', -⟩ := (decInt_ok_iff hc hv).1 ((intC_lawful cfg k).round_trip v _ trivial rfl r)
    have hx : x' = x := by
      apply BitVec.eq_of_toNat_eq
      rw [← wireNat_ofWire k x.toNat, ← wireNat_ofWire k x'.toNat, ← h3, ← h3']
    subst hx
    have hm := decodeU128_min h1
    have he := encInt_length hc hv v
    rw [h3, wireNat_ofWire] at he
    rw [List.length_append] at hm
    refine ⟨u, rfl, ?_⟩
    by_cases heq : (encInt cfg k v).length = u.length
    · exact .inl (List.append_cancel_right (decodeU128_inj h1' h1 (by rw [List.length_append, List.length_append, heq])))
    · exact .inr (by omega)

theorem SameOrShorter.neverLonger {u b : Bytes} (h : SameOrShorter u b) : NeverLonger u b := by
  rcases h with rfl | h
  · exact Nat.le_refl _
  · exact Nat.le_of_lt h

/-! ### Combinators -/

/-- `R` holds for the numbers of more than one byte. -/
def Nums (cfg : Cfg) (R : Bytes → Bytes → Bytes → Prop) : Prop :=
  ∀ (k : IntTy) s (v : BitVec k.bits) r, decInt cfg k s = .ok (v, r) → R (encInt cfg k v) s r

theorem Nums.len {cfg : Cfg} (h : Nums cfg R) {s r : Bytes} {n : Nat} (hd : readLen cfg s = .ok (n, r)) :
    R (encLen cfg n) s r := by
  obtain ⟨v, h1, rfl⟩ := bind_pure_ok.1 hd
  have := h .usize _ _ _ h1
  simpa [encLen] using this

theorem Nums.u32 {cfg : Cfg} (h : Nums cfg R) {s r : Bytes} {n : Nat} (hd : readU32 cfg s = .ok (n, r)) :
    R (encU32 cfg n) s r := by
  obtain ⟨v, h1, rfl⟩ := bind_pure_ok.1 hd
  have := h .u32 _ _ _ h1
  simpa [encU32] using this

theorem Nums.u16 {cfg : Cfg} (h : Nums cfg R) {s r : Bytes} {n : Nat} (hd : readU16 cfg s = .ok (n, r)) :
    R (encU16 cfg n) s r := by
  obtain ⟨v, h1, rfl⟩ := bind_pure_ok.1 hd
  have := h .u16 _ _ _ h1
  simpa [encU16] using this

theorem int8_again (hR : Joins R) {cfg : Cfg} {k : IntTy} (hk : ¬ k.IsVar) {s r : Bytes} {v : BitVec k.bits}
    (h : decInt cfg k s = .ok (v, r)) : R (encInt cfg k v) s r := by
  have := decInt_same k (.inr hk) h
  rw [this]
  exact hR.same _ _

theorem nums_same {cfg : Cfg} (h : cfg.fixedWidth = true) (hR : Joins R) : Nums cfg R := by
  intro k s v r hd
  rw [decInt_same k (.inl h) hd]
  exact hR.same _ _

theorem bytes_again (hR : Joins R) {cfg : Cfg} (h : Nums cfg R) {cap : Nat → Bool} {s b r : Bytes}
    (hd : readBytes cfg cap s = .ok (b, r)) : R (encBytes cfg b) s r := by
  obtain ⟨n, t, h1, h2⟩ := Rd.bind_ok.1 hd
  have hn := h.len h1
  split at h2
  · rename_i h0
    subst h0
    have h2 : Res.ok ([], t) = .ok (b, r) := h2
    injection h2 with h2
    injection h2 with h2 h3
    subst h2; subst h3
    exact hR.app hn (hR.nil _)
  · obtain ⟨_, t', h3, h4⟩ := Rd.bind_ok.1 h2
    obtain ⟨-, h3⟩ := alloc_ok h3
    injection h3 with _ h3
    subst h3
    obtain ⟨rfl, rfl⟩ := readExact_split h4
    exact hR.app hn (hR.same _ _)

theorem readN_again (hR : Joins R) {m : Rd α} {enc : α → Res Bytes} (h : Again R m enc) : ∀ (n : Nat) {s r l},
    Rd.readN n m s = .ok (l, r) → l.length = n ∧ ∃ b, encList enc l = .ok b ∧ R b s r
  | 0, s, r, l, hd => by
    have hd : Res.ok ([], s) = .ok (l, r) := hd
    injection hd with hd
    injection hd with h1 h2
    subst h1; subst h2
    exact ⟨rfl, [], rfl, hR.nil _⟩
  | n + 1, s, r, l, hd => by
    obtain ⟨a, l', t, rfl, h1, h2⟩ := readN_succ_ok hd
    obtain ⟨b, e1, r1⟩ := h _ _ _ h1
    obtain ⟨hl, b', e2, r2⟩ := readN_again hR h n h2
    refine ⟨by rw [List.length_cons, hl], b ++ b', ?_, hR.app r1 r2⟩
    show (enc a >>= fun x => encList enc l' >>= fun y => pure (x ++ y)) = _
    rw [e1, Res.ok_bind, e2, Res.ok_bind]
    rfl

theorem vecC_again (hR : Joins R) {cfg : Cfg} (h : Nums cfg R) {cap : Nat → Bool} {c : Codec α}
    (hc : Again R c.dec c.enc) : Again R (vecC cfg cap c).dec (vecC cfg cap c).enc := by
  intro s l r hd
  obtain ⟨n, t, h1, h2⟩ := Rd.bind_ok.1 hd
  have hn := h.len h1
  have key : l.length = n ∧ ∃ b, encList c.enc l = .ok b ∧ R b t r := by
    split at h2
    · rename_i h0
      subst h0
      exact readN_again hR hc 0 h2
    · obtain ⟨_, t', h3, h4⟩ := Rd.bind_ok.1 h2
      obtain ⟨-, h3⟩ := alloc_ok h3
      injection h3 with _ h3
      subst h3
      exact readN_again hR hc n h4
  obtain ⟨rfl, b, e, hb⟩ := key
  refine ⟨encLen cfg l.length ++ b, ?_, hR.app hn hb⟩
  show (encList c.enc l >>= fun x => pure (encLen cfg l.length ++ x)) = _
  rw [e]
  rfl

theorem encList_flatMap {f : α → Bytes} : ∀ l : List α, encList (fun a => .ok (f a)) l = .ok (l.flatMap f)
  | [] => rfl
  | a :: l => by
    show (Res.ok (f a) >>= fun x => encList (fun a => .ok (f a)) l >>= fun y => pure (x ++ y)) = _
    rw [encList_flatMap l]
    rfl

theorem bulkC_again (hR : Joins R) {cfg : Cfg} (h : Nums cfg R) {cap : Nat → Bool} {W w : Nat} (hw : 8 * w ≤ W) :
    Again R (bulkC cfg cap W w).dec (bulkC cfg cap W w).enc := by
  intro s l r hd
  obtain ⟨n, t, h1, h2⟩ := Rd.bind_ok.1 hd
  have hn := h.len h1
  have key : l.length = n ∧ ∃ b, encList (fun v : BitVec W => .ok (leBytes w v.toNat)) l = .ok b ∧ R b t r := by
    split at h2
    · rename_i h0
      subst h0
      exact readN_again hR (readLE_again hR hw) 0 h2
    split at h2
    · obtain ⟨_, t', h3, h4⟩ := Rd.bind_ok.1 h2
      obtain ⟨-, h3⟩ := alloc_ok h3
      injection h3 with _ h3
      subst h3
      rw [← readN_readLE] at h4
      exact readN_again hR (readLE_again hR hw) n h4
    · cases h2
  obtain ⟨rfl, b, e, hb⟩ := key
  rw [encList_flatMap] at e
  injection e with e
  subst e
  exact ⟨_, rfl, hR.app hn hb⟩

theorem optionC_again (hR : Joins R) {cfg : Cfg} {c : Codec α} (hc : Again R c.dec c.enc) :
    Again R (optionC cfg c).dec (optionC cfg c).enc := by
  intro s v r hd
  obtain ⟨n, t, h1, h2⟩ := Rd.bind_ok.1 hd
  have hn := int8_again hR (by decide) h1
  split at h2
  · rename_i h0
    subst h0
    have h2 : Res.ok (none, t) = .ok (v, r) := h2
    injection h2 with h2
    injection h2 with h2 h3
    subst h2; subst h3
    exact ⟨_, rfl, hn⟩
  split at h2
  · rename_i h0
    subst h0
    obtain ⟨a, h3, rfl⟩ := bind_pure_ok.1 h2
    obtain ⟨b, e, hb⟩ := hc _ _ _ h3
    refine ⟨_, ?_, hR.app hn hb⟩
    show (c.enc a >>= fun b => pure (encInt cfg .u8 1 ++ b)) = _
    rw [e]
    rfl
  · cases h2

theorem resultC_again (hR : Joins R) {cfg : Cfg} (h : Nums cfg R) {c : Codec α} {d : Codec β}
    (hc : Again R c.dec c.enc) (hd : Again R d.dec d.enc) : Again R (resultC cfg c d).dec (resultC cfg c d).enc := by
  intro s v r hd'
  obtain ⟨n, t, h1, h2⟩ := Rd.bind_ok.1 hd'
  have hn := h.u32 h1
  split at h2
  · rename_i h0
    subst h0
    obtain ⟨a, h3, rfl⟩ := bind_pure_ok.1 h2
    obtain ⟨b, e, hb⟩ := hc _ _ _ (Rd.mapErr_ok.1 h3)
    refine ⟨_, ?_, hR.app hn hb⟩
    show (c.enc a >>= fun b => pure (encU32 cfg 0 ++ b)) = _
    rw [e]
    rfl
  split at h2
  · rename_i h0
    subst h0
    obtain ⟨a, h3, rfl⟩ := bind_pure_ok.1 h2
    obtain ⟨b, e, hb⟩ := hd _ _ _ (Rd.mapErr_ok.1 h3)
    refine ⟨_, ?_, hR.app hn hb⟩
    show (d.enc a >>= fun b => pure (encU32 cfg 1 ++ b)) = _
    rw [e]
    rfl
  · cases h2

theorem boundC_again (hR : Joins R) {cfg : Cfg} (h : Nums cfg R) {c : Codec α}
    (hc : Again R c.dec c.enc) : Again R (boundC cfg c).dec (boundC cfg c).enc := by
  intro s v r hd'
  obtain ⟨n, t, h1, h2⟩ := Rd.bind_ok.1 hd'
  have hn := h.u32 h1
  split at h2
  · rename_i h0
    subst h0
    have h2 : Res.ok (Bnd.unbounded, t) = .ok (v, r) := h2
    injection h2 with h2
    injection h2 with h2 h3
    subst h2; subst h3
    exact ⟨_, rfl, hn⟩
  split at h2
  · rename_i h0
    subst h0
    obtain ⟨a, h3, rfl⟩ := bind_pure_ok.1 h2
    obtain ⟨b, e, hb⟩ := hc _ _ _ (Rd.mapErr_ok.1 h3)
    refine ⟨_, ?_, hR.app hn hb⟩
    show (c.enc a >>= fun b => pure (encU32 cfg 1 ++ b)) = _
    rw [e]
    rfl
  split at h2
  · rename_i h0
    subst h0
    obtain ⟨a, h3, rfl⟩ := bind_pure_ok.1 h2
    obtain ⟨b, e, hb⟩ := hc _ _ _ (Rd.mapErr_ok.1 h3)
    refine ⟨_, ?_, hR.app hn hb⟩
    show (c.enc a >>= fun b => pure (encU32 cfg 2 ++ b)) = _
    rw [e]
    rfl
  · cases h2

theorem pairC_again (hR : Joins R) {c : Codec α} {d : Codec β} (hc : Again R c.dec c.enc) (hd : Again R d.dec d.enc) :
    Again R (pairC c d).dec (pairC c d).enc := by
  intro s v r h
  obtain ⟨a, t, h1, h2⟩ := Rd.bind_ok.1 h
  obtain ⟨b, h3, rfl⟩ := bind_pure_ok.1 h2
  obtain ⟨x, e1, hx⟩ := hc _ _ _ h1
  obtain ⟨y, e2, hy⟩ := hd _ _ _ h3
  refine ⟨x ++ y, ?_, hR.app hx hy⟩
  show (c.enc a >>= fun x => d.enc b >>= fun y => pure (x ++ y)) = _
  rw [e1, Res.ok_bind, e2]
  rfl

theorem stringC_again (hR : Joins R) {cfg : Cfg} (h : Nums cfg R) {cap : Nat → Bool} :
    Again R (stringC cfg cap).dec (stringC cfg cap).enc := by
  intro s v r hd
  obtain ⟨b, h1, h2⟩ := bind_lift_ok.1 hd
  refine ⟨_, rfl, ?_⟩
  rw [strBytes_of_fromUtf8 h2]
  exact bytes_again hR h h1

theorem pathC_again (hR : Joins R) {cfg : Cfg} (h : Nums cfg R) {cap : Nat → Bool} :
    Again R (pathC cfg cap).dec (pathC cfg cap).enc := by
  intro s v r hd
  obtain ⟨a, h1, rfl⟩ := bind_pure_ok.1 hd
  obtain ⟨b, e, hb⟩ := stringC_again hR h _ _ _ h1
  refine ⟨b, ?_, hb⟩
  show (match fromUtf8 (strBytes a) with
      | .ok _ => Res.ok (encBytes cfg (strBytes a))
      | _ => .err .invalidPath) = _
  rw [fromUtf8_strBytes]
  exact e

theorem boolC_again (hR : Joins R) : Again R boolC.dec boolC.enc := by
  intro s v r hd
  obtain ⟨b, t, h1, h2⟩ := Rd.bind_ok.1 hd
  have := readByte_split h1
  subst this
  split at h2
  · rename_i hb; subst hb
    have h2 : Res.ok (false, t) = .ok (v, r) := h2
    injection h2 with h2
    injection h2 with h2 h3
    subst h2; subst h3
    exact ⟨[0], rfl, hR.same [0] _⟩
  split at h2
  · rename_i hb; subst hb
    have h2 : Res.ok (true, t) = .ok (v, r) := h2
    injection h2 with h2
    injection h2 with h2 h3
    subst h2; subst h3
    exact ⟨[1], rfl, hR.same [1] _⟩
  · cases h2

theorem notNanC_again (hR : Joins R) (n : Nat) : Again R (notNanC n).dec (notNanC n).enc := by
  intro s v r hd
  obtain ⟨b, t, h1, h2⟩ := Rd.bind_ok.1 hd
  split at h2
  · cases h2
  · have h2 : Res.ok (b, t) = .ok (v, r) := h2
    injection h2 with h2
    injection h2 with h2 h3
    subst h2; subst h3
    exact readLE_again hR (Nat.le_refl _) _ _ _ h1

/-! ### Times of fixed width -/

theorem encInt_fixed_length {cfg : Cfg} (h : cfg.fixedWidth = true) (k : IntTy) (v w : BitVec k.bits) :
    (encInt cfg k v).length = (encInt cfg k w).length := by
  cases k <;> simp [encInt, h]

theorem durationC_again {cfg : Cfg} (h : cfg.fixedWidth = true) :
    Again NotLonger (durationC cfg).dec (durationC cfg).enc := by
  intro s v r hd
  obtain ⟨a, t, h1, h2⟩ := Rd.bind_ok.1 hd
  obtain ⟨b, h3, h4⟩ := bind_lift_ok.1 h2
  have e1 := nums_same h NotLonger.parts _ _ _ _ h1
  have e2 := nums_same h NotLonger.parts _ _ _ _ h3
  refine ⟨_, rfl, ?_⟩
  have l1 := encInt_fixed_length h .u64 a v.1
  have l2 := encInt_fixed_length h .u32 b v.2
  exact (NotLonger.parts.app e1 e2).less (by simp only [List.length_append]; omega)

theorem systemTimeC_again {cfg : Cfg} (h : cfg.fixedWidth = true) :
    Again NotLonger (systemTimeC cfg).dec (systemTimeC cfg).enc := by
  intro s v r hd
  obtain ⟨a, t, h1, h2⟩ := Rd.bind_ok.1 hd
  obtain ⟨b, t', h3, h4⟩ := Rd.bind_ok.1 h2
  obtain ⟨d, t2, h5, h6⟩ := Rd.bind_ok.1 h4
  obtain ⟨-, rfl⟩ := lift_run_ok.1 h5
  split at h6
  · rename_i hlt
    have h6 : Res.ok (d, t') = .ok (v, r) := h6
    injection h6 with h6
    injection h6 with h6 h7
    subst h6; subst h7
    have e1 := nums_same h NotLonger.parts _ _ _ _ h1
    have e2 := nums_same h NotLonger.parts _ _ _ _ h3
    have hn : ¬ d.1.toInt < 0 := by
      rw [BitVec.toInt_eq_toNat_cond]
      split <;> omega
    refine ⟨_, if_neg hn, ?_⟩
    have l1 := encInt_fixed_length h .u64 a d.1
    have l2 := encInt_fixed_length h .u32 b d.2
    exact (NotLonger.parts.app e1 e2).less (by simp only [List.length_append]; omega)
  · cases h6

/-! ### Collections -/

/-- The length of what is written. -/
def sizeBy (enc : α → Res Bytes) (a : α) : Nat :=
  match enc a with
  | .ok b => b.length
  | _ => 0

theorem sizeBy_of {enc : α → Res Bytes} {a : α} {b : Bytes} (h : enc a = .ok b) : sizeBy enc a = b.length := by
  unfold sizeBy; rw [h]

theorem encList_sizes {α : Type} {enc : α → Res Bytes} : ∀ {l : List α} {b : Bytes}, encList enc l = .ok b →
    (∀ a ∈ l, ∃ x, enc a = .ok x) ∧ b.length = (l.map (sizeBy enc)).sum
  | [], b, h => by
    have h : Res.ok [] = .ok b := h
    injection h with h
    subst h
    exact ⟨nofun, rfl⟩
  | a :: l, b, h => by
    obtain ⟨x, y, h1, h2, rfl⟩ := encList_cons h
    obtain ⟨i1, i2⟩ := encList_sizes h2
    refine ⟨fun c hc => ?_, ?_⟩
    · rcases List.mem_cons.1 hc with rfl | hc
      · exact ⟨x, h1⟩
      · exact i1 c hc
    · rw [List.map_cons, List.sum_cons, sizeBy_of h1, List.length_append, i2]

/-- Building a collection leaves less to write. -/
def Shrinks (enc : α → Res Bytes) (build : List α → List α) : Prop :=
  ∀ l, (∀ a ∈ l, ∃ x, enc a = .ok x) → (∀ a ∈ build l, ∃ x, enc a = .ok x) ∧
    ((build l).map (sizeBy enc)).sum ≤ (l.map (sizeBy enc)).sum ∧ (build l).length ≤ l.length

theorem varintSize_mono {m n : Nat} (h : m ≤ n) : varintSize m ≤ varintSize n := by
  unfold varintSize
  repeat' split
  all_goals omega

theorem encLen_mono (cfg : Cfg) {m n : Nat} (h : m ≤ n) (hn : n < 2 ^ 64) :
    (encLen cfg m).length ≤ (encLen cfg n).length := by
  simp only [encLen, encInt]
  split
  · simp
  · rw [encodeU64_length, encodeU64_length, BitVec.toNat_ofNat, BitVec.toNat_ofNat, Nat.mod_eq_of_lt hn,
      Nat.mod_eq_of_lt (by omega)]
    exact varintSize_mono h

theorem collC_again {cfg : Cfg} {cap : Nat → Bool} {c : Codec α} {inv : List α → Prop} {build : List α → List α}
    (hc : Again NotLonger c.dec c.enc) (hb : Shrinks c.enc build) (h : Nums cfg NotLonger) :
    Again NotLonger (collC cfg cap c inv build).dec (collC cfg cap c inv build).enc := by
  intro s l r hd
  obtain ⟨n, t, h1, h2⟩ := Rd.bind_ok.1 hd
  have hn := h.len h1
  have hlt : n < 2 ^ 64 := by
    obtain ⟨v, -, rfl⟩ := bind_pure_ok.1 h1
    exact v.isLt
  obtain ⟨_, t', h3, h4⟩ := Rd.bind_ok.1 h2
  obtain ⟨-, h3⟩ := alloc_ok h3
  injection h3 with _ h3
  subst h3
  obtain ⟨l', h5, rfl⟩ := bind_pure_ok.1 h4
  obtain ⟨rfl, b, e, hb'⟩ := readN_again NotLonger.parts hc n h5
  obtain ⟨g1, g2⟩ := encList_sizes e
  obtain ⟨k1, k2, k3⟩ := hb l' g1
  obtain ⟨x, hx⟩ := encList_ok k1
  have := (encList_sizes hx).2
  have := encLen_mono cfg k3 hlt
  refine ⟨encLen cfg (build l').length ++ x, ?_, ?_⟩
  · show (encList c.enc (build l') >>= fun x => pure (encLen cfg (build l').length ++ x)) = _
    rw [hx]
    rfl
  · exact (NotLonger.parts.app hn hb').less (by simp only [List.length_append]; omega)

theorem sublist_sum {w : α → Nat} {l l' : List α} (h : l.Sublist l') : (l.map w).sum ≤ (l'.map w).sum := by
  induction h with
  | slnil => exact Nat.le_refl _
  | cons _ _ ih => rw [List.map_cons, List.sum_cons]; omega
  | cons_cons _ _ ih => rw [List.map_cons, List.sum_cons, List.map_cons, List.sum_cons]; omega

theorem btreeBuild_shrinks {α κ : Type} {enc : α → Res Bytes} (cmp : κ → κ → Ordering) (key : α → κ) :
    Shrinks enc (btreeBuild cmp key) := by
  intro l h
  have hp := List.mergeSort_perm l fun a b => (cmp (key a) (key b)).isLE
  have hs := dedupLast_sublist cmp key (l.mergeSort fun a b => (cmp (key a) (key b)).isLE)
  refine ⟨fun a ha => h a (hp.subset (hs.subset ha)), ?_, ?_⟩
  · have := sum_perm (w := sizeBy enc) hp
    have := sublist_sum (w := sizeBy enc) hs
    unfold btreeBuild
    omega
  · have := hs.length_le
    have := hp.length_eq
    unfold btreeBuild
    omega

theorem heap_shrinks {enc : α → Res Bytes} (cmp : α → α → Ordering) :
    Shrinks enc fun l => l.foldl (heapPush cmp) [] := by
  intro l h
  have hp := heap_foldl_perm cmp l []
  rw [List.nil_append] at hp
  exact ⟨fun a ha => h a (hp.subset ha), Nat.le_of_eq (sum_perm hp), Nat.le_of_eq hp.length_eq⟩

theorem hashSet_sum {eq : κ → κ → Bool} {w : κ → Nat} (l : List κ) : ∀ acc : List κ,
    ((l.foldl (hashSetInsert eq) acc).map w).sum ≤ (acc.map w).sum + (l.map w).sum := by
  induction l with
  | nil => intro acc; simp
  | cons a l ih =>
    intro acc
    have := ih (hashSetInsert eq acc a)
    rw [List.foldl_cons, List.map_cons, List.sum_cons]
    have h2 : ((hashSetInsert eq acc a).map w).sum ≤ (acc.map w).sum + w a := by
      unfold hashSetInsert
      split
      · omega
      · simp
    omega

theorem hashSet_shrinks {enc : κ → Res Bytes} (eq : κ → κ → Bool) :
    Shrinks enc fun l => l.foldl (hashSetInsert eq) [] := by
  intro l h
  refine ⟨fun a ha => ?_, ?_, ?_⟩
  · rcases hashSet_foldl_mem l [] a ha with h' | h'
    · cases h'
    · exact h a h'
  · have := hashSet_sum (eq := eq) (w := sizeBy enc) l []
    simpa using this
  · simpa using hashSet_foldl_length (eq := eq) l []

theorem hashInsert_sum {eq : κ → κ → Bool} (heu : ∀ a b c, eq a c = true → eq b c = true → eq a b = true)
    {w : κ → Nat} {x : ν → Nat} (p : κ × ν) : ∀ l : List (κ × ν), DistinctKeys eq (l.map Prod.fst) →
    ((l.map fun e => if eq e.1 p.1 = true then (e.1, p.2) else e).map fun e => w e.1 + x e.2).sum ≤
      (l.map fun e => w e.1 + x e.2).sum + x p.2 := by
  intro l hd
  induction l with
  | nil => simp
  | cons e l ih =>
    obtain ⟨h1, h2⟩ := List.pairwise_cons.1 hd
    by_cases he : eq e.1 p.1 = true
    · have hrest : (l.map fun e => if eq e.1 p.1 = true then (e.1, p.2) else e) = l := by
        conv => rhs; rw [← List.map_id l]
        refine List.map_congr_left fun e' he' => ?_
        rw [if_neg]
        · rfl
        · intro h'
          have := heu _ _ _ he h'
          rw [h1 e'.1 (List.mem_map_of_mem he')] at this
          cases this
      rw [List.map_cons, hrest, if_pos he]
      simp only [List.map_cons, List.sum_cons]
      omega
    · have := ih h2
      rw [List.map_cons, if_neg he]
      simp only [List.map_cons, List.sum_cons]
      omega

theorem hash_sum {eq : κ → κ → Bool} (heu : ∀ a b c, eq a c = true → eq b c = true → eq a b = true)
    {w : κ → Nat} {x : ν → Nat} (l : List (κ × ν)) : ∀ acc : List (κ × ν), DistinctKeys eq (acc.map Prod.fst) →
    ((l.foldl (hashInsert eq) acc).map fun e => w e.1 + x e.2).sum ≤
      (acc.map fun e => w e.1 + x e.2).sum + (l.map fun e => w e.1 + x e.2).sum := by
  induction l with
  | nil => intro acc _; simp
  | cons p l ih =>
    intro acc hd
    have := ih _ (hashInsert_distinct (p := p) hd)
    rw [List.foldl_cons, List.map_cons, List.sum_cons]
    have h2 : ((hashInsert eq acc p).map fun e => w e.1 + x e.2).sum ≤
        (acc.map fun e => w e.1 + x e.2).sum + (w p.1 + x p.2) := by
      unfold hashInsert
      split
      · have := hashInsert_sum heu (w := w) (x := x) p acc hd
        omega
      · simp
    omega

theorem pairC_size {c : Codec κ} {d : Codec ν} {e : κ × ν} {b : Bytes} (h : (pairC c d).enc e = .ok b) :
    ∃ x y, c.enc e.1 = .ok x ∧ d.enc e.2 = .ok y ∧ b = x ++ y := by
  obtain ⟨x, h1, h2⟩ := Res.bind_eq_ok.1 h
  obtain ⟨y, h3, h4⟩ := Res.bind_eq_ok.1 h2
  injection h4 with h4
  exact ⟨x, y, h1, h3, h4.symm⟩

theorem hash_shrinks {eq : κ → κ → Bool} (heu : ∀ a b c, eq a c = true → eq b c = true → eq a b = true)
    {c : Codec κ} {d : Codec ν} : Shrinks (pairC c d).enc fun l => l.foldl (hashInsert eq) [] := by
  intro l h
  have conv : ∀ m : List (κ × ν), (∀ e ∈ m, ∃ x, (pairC c d).enc e = .ok x) →
      (m.map (sizeBy (pairC c d).enc)).sum = (m.map fun e => sizeBy c.enc e.1 + sizeBy d.enc e.2).sum := by
    intro m hm
    congr 1
    refine List.map_congr_left fun e he => ?_
    obtain ⟨b, hb⟩ := hm e he
    obtain ⟨x, y, h1, h2, rfl⟩ := pairC_size hb
    rw [sizeBy_of hb, sizeBy_of h1, sizeBy_of h2, List.length_append]
  have hok : ∀ e ∈ l.foldl (hashInsert eq) [], ∃ x, (pairC c d).enc e = .ok x := by
    intro e he
    have := hash_foldl_valid (eq := eq) (P := fun k => ∃ x, c.enc k = .ok x) (Q := fun v => ∃ y, d.enc v = .ok y)
      l [] nofun (fun e he => by
        obtain ⟨b, hb⟩ := h e he
        obtain ⟨x, y, h1, h2, -⟩ := pairC_size hb
        exact ⟨⟨x, h1⟩, ⟨y, h2⟩⟩) e he
    obtain ⟨⟨x, h1⟩, ⟨y, h2⟩⟩ := this
    refine ⟨x ++ y, ?_⟩
    show (c.enc e.1 >>= fun x => d.enc e.2 >>= fun y => pure (x ++ y)) = _
    rw [h1, Res.ok_bind, h2]
    rfl
  refine ⟨hok, ?_, ?_⟩
  · rw [conv _ hok, conv _ h]
    have := hash_sum heu (w := sizeBy c.enc) (x := sizeBy d.enc) l [] (by simp [DistinctKeys])
    simpa using this
  · simpa using hash_foldl_length (eq := eq) l []

theorem boolsC_again {cfg : Cfg} (h : Nums cfg NotLonger) {cap : Nat → Bool} :
    Again NotLonger (boolsC cfg cap).dec (boolsC cfg cap).enc := by
  intro s l r hd
  obtain ⟨n, t, h1, h2⟩ := Rd.bind_ok.1 hd
  have hn := h.len h1
  refine ⟨_, rfl, ?_⟩
  split at h2
  · rename_i h0
    subst h0
    have h2 : Res.ok ([], t) = .ok (l, r) := h2
    injection h2 with h2
    injection h2 with h2 h3
    subst h2; subst h3
    exact hn.less (by simp [divCeil8, packBools])
  · obtain ⟨_, t', h3, h4⟩ := Rd.bind_ok.1 h2
    obtain ⟨-, h3⟩ := alloc_ok h3
    injection h3 with _ h3
    subst h3
    obtain ⟨b, t2, h5, h6⟩ := Rd.bind_ok.1 h4
    obtain ⟨_, t3, h7, h8⟩ := Rd.bind_ok.1 h6
    obtain ⟨-, h7⟩ := alloc_ok h7
    injection h7 with _ h7
    subst h7
    have h8 : Res.ok (unpackBools n b, t3) = .ok (l, r) := h8
    injection h8 with h8
    injection h8 with h8 h9
    subst h8; subst h9
    obtain ⟨rfl, hl⟩ := readExact_split h5
    rw [unpackBools_length b n hl.symm]
    exact (NotLonger.parts.app hn (NotLonger.parts.same b _)).less
      (by simp only [List.length_append, packBools_length]; omega)

/-! ### Types -/

section
variable {ι : Type} {E : Env ι} {cfg : Cfg}

theorem vecOf_again (hR : Joins R) (hn : Nums cfg R) (t : Ty ι) {c : Codec (t.denote E.X)} (hc : Again R c.dec c.enc)
    (hb : t = .bool → cfg.specialised = true → R = NotLonger) :
    Again R (vecOf cfg E t c).dec (vecOf cfg E t c).enc := by
  have key := vecC_again hR hn (cap := E.cap t) hc
  cases t with
  | bool =>
    simp only [vecOf]
    split
    · rename_i hs
      have := hb rfl hs
      subst this
      exact boolsC_again hn
    · exact key
  | int k =>
    simp only [vecOf]
    split
    · exact bulkC_again hR hn (by cases k <;> decide)
    · exact key
  | float f =>
    simp only [vecOf]
    split
    · exact bulkC_again hR hn (Nat.le_refl _)
    · exact key
  | uuid =>
    simp only [vecOf]
    split
    · exact bulkC_again hR hn (by decide)
    · exact key
  | _ => exact key

/-- `p` is what a type is required to be for `R`. -/
structure Requires (cfg : Cfg) (E : Env ι) (R : Bytes → Bytes → Bytes → Prop) (p : Ty ι → Prop) : Prop where
  parts : Joins R
  nums : ∀ u, p u → u.hasNumber = true → Nums cfg R
  time : ∀ u, p u → u.isTime = true → cfg.fixedWidth = true ∧ R = NotLonger
  arranged : ∀ u, p u → u.isArranged = true → R = NotLonger
  bits : ∀ u, p u → u.isBits = true → cfg.specialised = true → R = NotLonger
  eq : ∀ k v, p (.hashMap k v) → ∀ a b c, E.eq k a c = true → E.eq k b c = true → E.eq k a b = true

theorem Ty.again {p : Ty ι → Prop} (hp : Requires cfg E R p) (hx : ∀ i, p (.ext i) → Again R (E.extC i).dec (E.extC i).enc) :
    ∀ t : Ty ι, t.Built p → Again R (t.codec cfg E).dec (t.codec cfg E).enc := by
  have hR := hp.parts
  intro t
  induction t with
  | unit =>
    intro _ s v r h
    have h : Res.ok ((), s) = .ok (v, r) := h
    injection h with h
    injection h with h1 h2
    subst h2
    exact ⟨[], rfl, hR.nil _⟩
  | bool => intro _; exact boolC_again hR
  | int k =>
    intro h s v r hd
    refine ⟨_, rfl, ?_⟩
    by_cases hk : k.IsVar
    · exact hp.nums _ h (by simp [Ty.hasNumber, hk]) k _ _ _ hd
    · exact int8_again hR hk hd
  | float f => intro _; exact readLE_again hR (Nat.le_refl _)
  | char =>
    intro _ s v r hd
    rw [charC_dec_iff.1 hd]
    exact ⟨_, rfl, hR.same _ _⟩
  | string => intro h; exact stringC_again hR (hp.nums _ h rfl)
  | path => intro h; exact pathC_again hR (hp.nums _ h rfl)
  | bytes => intro h s v r hd; exact ⟨_, rfl, bytes_again hR (hp.nums _ h rfl) hd⟩
  | uuid => intro _; exact readLE_again hR (by decide)
  | duration =>
    intro h
    obtain ⟨hf, rfl⟩ := hp.time _ h rfl
    exact durationC_again hf
  | systemTime =>
    intro h
    obtain ⟨hf, rfl⟩ := hp.time _ h rfl
    exact systemTimeC_again hf
  | notNan f => intro _; exact notNanC_again hR _
  | option t ih => intro h; exact optionC_again hR (ih h.2)
  | result t e iht ihe => intro h; exact resultC_again hR (hp.nums _ h.1 rfl) (iht h.2.1) (ihe h.2.2)
  | bound t ih => intro h; exact boundC_again hR (hp.nums _ h.1 rfl) (ih h.2)
  | wrap t ih => intro h; exact ih h.2
  | pair s t ihs iht => intro h; exact pairC_again hR (ihs h.2.1) (iht h.2.2)
  | array n t ih =>
    intro h s v r hd
    exact (readN_again hR (ih h.2) n hd).2
  | vec t ih =>
    intro h
    exact vecOf_again hR (hp.nums _ h.1 rfl) t (ih h.2) fun ht hs => by
      subst ht
      exact hp.bits _ h.1 rfl hs
  | vector t ih =>
    intro h s l r hd
    have hn := hp.nums _ h.1 rfl
    obtain ⟨n, t', h1, h2⟩ := Rd.bind_ok.1 hd
    obtain ⟨_, t2, h3, h4⟩ := Rd.bind_ok.1 h2
    obtain ⟨-, h3⟩ := alloc_ok h3
    injection h3 with _ h3
    subst h3
    obtain ⟨l', h5, rfl⟩ := bind_pure_ok.1 h4
    obtain ⟨rfl, b, e, hb'⟩ := readN_again hR (ih h.2) n h5
    refine ⟨encLen cfg l'.length ++ b, ?_, hR.app (hn.len h1) hb'⟩
    show (encList (t.codec cfg E).enc l' >>= fun x => pure (encLen cfg l'.length ++ x)) = _
    rw [e]
    rfl
  | btreeMap k v ihk ihv =>
    intro h
    have := hp.arranged _ h.1 rfl
    subst this
    exact collC_again (pairC_again hR (ihk h.2.1) (ihv h.2.2)) (btreeBuild_shrinks _ _) (hp.nums _ h.1 rfl)
  | btreeSet k ih =>
    intro h
    have := hp.arranged _ h.1 rfl
    subst this
    exact collC_again (ih h.2) (btreeBuild_shrinks _ _) (hp.nums _ h.1 rfl)
  | hashMap k v ihk ihv =>
    intro h
    have := hp.arranged _ h.1 rfl
    subst this
    exact collC_again (pairC_again hR (ihk h.2.1) (ihv h.2.2)) (hash_shrinks (hp.eq k v h.1)) (hp.nums _ h.1 rfl)
  | hashSet k ih =>
    intro h
    have := hp.arranged _ h.1 rfl
    subst this
    exact collC_again (ih h.2) (hashSet_shrinks _) (hp.nums _ h.1 rfl)
  | binaryHeap t ih =>
    intro h
    have := hp.arranged _ h.1 rfl
    subst this
    exact collC_again (ih h.2) (heap_shrinks _) (hp.nums _ h.1 rfl)
  | ext i => intro h; exact hx i h

end

end Revision
