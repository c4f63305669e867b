import Verif.Spec.Wire
import Verif.Proofs.Packed
import Verif.Proofs.Ints

/-! Helper lemmas: what the model writes is the wire format of `Spec/Wire.lean`. -/

namespace Revision

open Wire

theorem leBytes_eq_le (w n : Nat) : leBytes w n = le w n := by
  induction w generalizing n with
  | zero => rfl
  | succ w ih =>
    simp only [leBytes, ih, le, List.range_succ_eq_map, List.map_cons, List.map_map, Nat.pow_zero,
      Nat.div_one]
    congr 1
    apply List.map_congr_left
    intro i _
    simp only [Function.comp, Nat.succ_eq_add_one, Nat.pow_succ']
    rw [Nat.div_div_eq_div_mul]

theorem encodeU64_eq_varint (v : BitVec 64) : encodeU64 v = varint v.toNat := by
  have := v.isLt
  simp only [encodeU64, varint, leBytes_eq_le]
  repeat' split
  all_goals first | rfl | omega

theorem encodeU128_eq_varint (v : BitVec 128) : encodeU128 v = varint v.toNat := by
  simp only [encodeU128, varint, leBytes_eq_le]

theorem number_u64 (cfg : Cfg) (v : BitVec 64) : encInt cfg .u64 v = number cfg 8 v.toNat := by
  simp only [encInt, number, leBytes_eq_le, encodeU64_eq_varint]

theorem number_u32 (cfg : Cfg) (v : BitVec 32) : encInt cfg .u32 v = number cfg 4 v.toNat := by
  simp only [encInt, number, leBytes_eq_le, encodeU64_eq_varint]
  rw [BitVec.toNat_setWidth, Nat.mod_eq_of_lt (by have := v.isLt; omega)]

theorem encLen_eq {cfg : Cfg} {n : Nat} (h : n < 2 ^ 64) : encLen cfg n = number cfg 8 n := by
  have := number_u64 cfg (BitVec.ofNat 64 n)
  simp only [encLen, encInt] at this ⊢
  rw [this]
  simp only [BitVec.toNat_ofNat]
  rw [Nat.mod_eq_of_lt h]

theorem encU32_eq {cfg : Cfg} {n : Nat} (h : n < 2 ^ 32) : encU32 cfg n = number cfg 4 n := by
  rw [encU32, number_u32]
  simp only [BitVec.toNat_ofNat]
  rw [Nat.mod_eq_of_lt h]

theorem encInt_eq_wire (cfg : Cfg) (k : IntTy) (v : BitVec k.bits) (hk : k.IsVar) :
    encInt cfg k v = number cfg (k.bits / 8) (k.wireNat (k.value v)) := by
  have hu : ∀ {w : Nat} (v : BitVec w), w ≤ 64 → (v.setWidth 64).toNat = v.toNat := by
    intro w v hw
    rw [BitVec.toNat_setWidth]
    exact Nat.mod_eq_of_lt (Nat.lt_of_lt_of_le v.isLt (Nat.pow_le_pow_right (by decide) hw))
  have hz : ∀ {w : Nat} (v : BitVec w), w ≤ 64 → (zigzag (v.signExtend 64)).toNat = zigzagSpec v.toInt := by
    intro w v hw
    rw [zigzag_toNat (by decide), signExtend_toInt hw]
  cases k
  case u8 => exact absurd rfl hk.1
  case i8 => exact absurd rfl hk.2
  all_goals simp only [encInt, number, leBytes_eq_le, encodeU64_eq_varint, encodeU128_eq_varint,
    IntTy.wireNat, IntTy.value, IntTy.signed, if_true, Bool.false_eq_true, if_false, Int.toNat_natCast,
    IntTy.bits]
  all_goals first
    | rfl
    | rw [hu _ (by decide)]
    | rw [hz _ (by decide)]
    | rw [zigzag_toNat (by decide)]

theorem encList_iff {R : α → Bytes → Prop} {enc : α → Res Bytes} (l : List α)
    (h : ∀ a ∈ l, ∀ b, enc a = .ok b ↔ R a b) (b : Bytes) : encList enc l = .ok b ↔ Each R l b := by
  induction l generalizing b with
  | nil =>
    constructor
    · intro hb; cases hb; exact .nil
    · intro hb; cases hb; rfl
  | cons a l ih =>
    simp only [encList, Res.bind_eq_ok, Res.pure_def, Res.ok.injEq]
    constructor
    · rintro ⟨x, hx, y, hy, rfl⟩
      exact .cons ((h a (by simp) x).1 hx) ((ih (fun a ha => h a (by simp [ha])) y).1 hy)
    · intro hb
      cases hb with
      | cons hx hy =>
        exact ⟨_, (h a (by simp) _).2 hx, _, (ih (fun a ha => h a (by simp [ha])) _).2 hy, rfl⟩

theorem flatMap_iff (f : α → Bytes) (l : List α) (b : Bytes) :
    l.flatMap f = b ↔ Each (fun a x => x = f a) l b := by
  induction l generalizing b with
  | nil =>
    constructor
    · intro hb; subst hb; exact .nil
    · intro hb; cases hb; rfl
  | cons a l ih =>
    constructor
    · intro hb; subst hb
      exact .cons rfl ((ih _).1 rfl)
    · intro hb
      cases hb with
      | cons hx hy => subst hx; rw [List.flatMap_cons, (ih _).2 hy]

theorem UInt8.ext_testBit {a b : UInt8} (h : ∀ k, k < 8 → a.toNat.testBit k = b.toNat.testBit k) :
    a = b := by
  apply UInt8.toNat_inj.1
  apply Nat.eq_of_testBit_eq
  intro i
  by_cases hi : i < 8
  · exact h i hi
  · have h2 : (2 : Nat) ^ 8 ≤ 2 ^ i := Nat.pow_le_pow_right (by decide) (by omega)
    rw [Nat.testBit_lt_two_pow (Nat.lt_of_lt_of_le a.toNat_lt h2),
      Nat.testBit_lt_two_pow (Nat.lt_of_lt_of_le b.toNat_lt h2)]

theorem packed_unique {l : List Bool} {a b : Bytes} (ha : Packed l a) (hb : Packed l b) : a = b := by
  apply List.ext_getElem (by rw [ha.1, hb.1])
  intro j h1 h2
  apply UInt8.ext_testBit
  intro k hk
  have e1 := ha.2 (8 * j + k)
  have e2 := hb.2 (8 * j + k)
  have d : (8 * j + k) / 8 = j := by omega
  have m : (8 * j + k) % 8 = k := by omega
  rw [d, m] at e1 e2
  simp only [List.getD_eq_getElem?_getD, List.getElem?_eq_getElem h1, Option.getD_some] at e1
  simp only [List.getD_eq_getElem?_getD, List.getElem?_eq_getElem h2, Option.getD_some] at e2
  rw [e1, e2]

theorem packBools_packed (l : List Bool) : Packed l (packBools (divCeil8 l.length) l) :=
  ⟨packBools_length _ _, fun i => bitAt_packBools _ l i rfl⟩

theorem counted_iff {cfg : Cfg} {n : Nat} (hn : n < 2 ^ 64) {e : Res Bytes} {Body : Bytes → Prop}
    (h : ∀ x, e = .ok x ↔ Body x) (b : Bytes) :
    (do let x ← e; pure (encLen cfg n ++ x) : Res Bytes) = .ok b ↔ Counted cfg n Body b := by
  simp only [Res.bind_eq_ok, Res.pure_def, Res.ok.injEq, Counted, encLen_eq hn, h]
  constructor
  · rintro ⟨x, hx, rfl⟩; exact ⟨x, rfl, hx⟩
  · rintro ⟨x, rfl, hx⟩; exact ⟨x, hx, rfl⟩

theorem counted_ok_iff {cfg : Cfg} {n : Nat} (hn : n < 2 ^ 64) {x : Bytes} {Body : Bytes → Prop}
    (h : ∀ y, x = y ↔ Body y) (b : Bytes) :
    (.ok (encLen cfg n ++ x) : Res Bytes) = .ok b ↔ Counted cfg n Body b := by
  have := counted_iff (cfg := cfg) hn (e := .ok x) (Body := Body) (by simpa using h) b
  simpa using this

theorem encBytes_iff {cfg : Cfg} {p : Bytes} (hn : p.length < 2 ^ 64) (b : Bytes) :
    (.ok (encBytes cfg p) : Res Bytes) = .ok b ↔ Counted cfg p.length (· = p) b :=
  counted_ok_iff hn (fun _ => eq_comm) b

theorem vecOf_wire (cfg : Cfg) (E : Env ι) (t : Ty ι) (l : List (t.denote E.X))
    {R : t.denote E.X → Bytes → Prop} (hl : l.length < 2 ^ 64) {d : Codec (t.denote E.X)}
    (h : ∀ a ∈ l, ∀ b, d.enc a = .ok b ↔ R a b) (b : Bytes) :
    (vecOf cfg E t d).enc l = .ok b ↔
      Counted cfg l.length (t.WireElems cfg E R l) b := by
  have gen : ∀ {c : Codec (t.denote E.X)}, c = d →
      ((vecC cfg (E.cap t) c).enc l = .ok b ↔ Counted cfg l.length (Each R l) b) := by
    rintro c rfl
    exact counted_iff hl (encList_iff l h) b
  cases t
  case bool =>
    simp only [vecOf, Ty.WireElems]
    split
    · refine counted_ok_iff hl (fun y => ⟨?_, fun hy => packed_unique (packBools_packed l) hy⟩) b
      rintro rfl
      exact packBools_packed l
    · exact gen rfl
  case int k =>
    simp only [vecOf, Ty.WireElems]
    by_cases hc : cfg.specialised = true ∧ k ≠ .usize ∧ k ≠ .isize
    · rw [if_pos hc, if_pos (by simpa [and_assoc] using hc)]
      refine counted_ok_iff hl (fun y => ?_) b
      rw [flatMap_iff]
      simp only [leBytes_eq_le]
    · rw [if_neg hc, if_neg (by simpa [and_assoc] using hc)]
      exact gen rfl
  case float f =>
    simp only [vecOf, Ty.WireElems]
    split
    · refine counted_ok_iff hl (fun y => ?_) b
      rw [flatMap_iff]
      simp only [leBytes_eq_le]
    · exact gen rfl
  case uuid =>
    simp only [vecOf, Ty.WireElems]
    split
    · refine counted_ok_iff hl (fun y => ?_) b
      rw [flatMap_iff]
      simp only [leBytes_eq_le]
    · exact gen rfl
  all_goals exact gen rfl

theorem tagged_iff {e : Res Bytes} {P : Bytes → Prop} {tag tag' : Bytes} (ht : tag = tag')
    (h : ∀ x, e = .ok x ↔ P x) (b : Bytes) :
    (do let x ← e; pure (tag ++ x) : Res Bytes) = .ok b ↔ ∃ x, b = tag' ++ x ∧ P x := by
  subst ht
  simp only [Res.bind_eq_ok, Res.pure_def, Res.ok.injEq, h]
  constructor
  · rintro ⟨x, hx, rfl⟩; exact ⟨x, rfl, hx⟩
  · rintro ⟨x, rfl, hx⟩; exact ⟨x, hx, rfl⟩

theorem pair_iff {x y : Res Bytes} {P Q : Bytes → Prop} (hx : ∀ b, x = .ok b ↔ P b)
    (hy : ∀ b, y = .ok b ↔ Q b) (b : Bytes) :
    (do let u ← x; let w ← y; pure (u ++ w) : Res Bytes) = .ok b ↔ ∃ u w, b = u ++ w ∧ P u ∧ Q w := by
  simp only [Res.bind_eq_ok, Res.pure_def, Res.ok.injEq, hx, hy]
  constructor
  · rintro ⟨u, hu, w, hw, rfl⟩; exact ⟨u, w, rfl, hu, hw⟩
  · rintro ⟨u, w, rfl, hu, hw⟩; exact ⟨u, hu, w, hw, rfl⟩

theorem Ty.codec_wire (cfg : Cfg) (E : Env ι) (t : Ty ι) (v : t.denote E.X) (hw : t.WF E v)
    (hf : t.Fits E v) (b : Bytes) : (t.codec cfg E).enc v = .ok b ↔ t.Wire cfg E v b := by
  have ok : ∀ {x : Bytes} {b : Bytes}, (Res.ok x = Res.ok b) ↔ b = x := by
    intro x b; rw [Res.ok.injEq]; exact eq_comm
  induction t generalizing b with
  | unit => exact ok
  | bool => exact ok
  | int k =>
    simp only [Ty.codec, intC, Codec.mirror, Ty.Wire, ok]
    split
    · rename_i h
      rcases h with rfl | rfl <;> simp only [encInt, leBytes_eq_le]
    · rename_i h
      rw [encInt_eq_wire cfg k v ⟨fun e => h (.inl e), fun e => h (.inr e)⟩]
  | float f => simp only [Ty.codec, floatC, Codec.mirror, Ty.Wire, ok, leBytes_eq_le]
  | char => exact ok
  | string =>
    have hl : (strBytes v).length = v.toByteArray.size := by simp [strBytes]
    simp only [Ty.codec, stringC, Ty.Wire, ← hl]
    exact encBytes_iff (by rw [hl]; exact hf.1) b
  | path =>
    obtain ⟨s, rfl⟩ := hw
    simp only [Ty.codec, pathC, Codec.mirror, Ty.Wire]
    have hs := fromUtf8_strBytes s
    simp only [strBytes] at hs
    rw [hs]
    exact encBytes_iff hf.1 b
  | bytes => exact encBytes_iff hf.1 b
  | uuid => simp only [Ty.codec, uuidC, Ty.Wire, ok, leBytes_eq_le]
  | duration => simp only [Ty.codec, durationC, Codec.mirror, Ty.Wire, ok, number_u64, number_u32]
  | systemTime =>
    simp only [Ty.codec, systemTimeC, Ty.Wire]
    rw [if_neg (by have := hw.1; omega), ok, number_u64, number_u32]
  | notNan f => simp only [Ty.codec, notNanC, Ty.Wire, ok, leBytes_eq_le]
  | option t ih =>
    cases v with
    | none => exact ok
    | some a => exact tagged_iff (tag' := [1]) rfl (ih a (hw a rfl) (hf a rfl)) b
  | result t e iht ihe =>
    cases v with
    | ok a => exact tagged_iff (encU32_eq (by decide)) (iht a (hw.1 a rfl) (hf.1 a rfl)) b
    | error x => exact tagged_iff (encU32_eq (by decide)) (ihe x (hw.2 x rfl) (hf.2 x rfl)) b
  | bound t ih =>
    cases v with
    | unbounded =>
      simp only [Ty.codec, boundC, Ty.Wire, ok]
      rw [encU32_eq (by decide)]
    | included a => exact tagged_iff (encU32_eq (by decide)) (ih a (hw a (.inl rfl)) (hf a (.inl rfl))) b
    | excluded a => exact tagged_iff (encU32_eq (by decide)) (ih a (hw a (.inr rfl)) (hf a (.inr rfl))) b
  | wrap t ih => exact ih v hw hf b
  | pair s t ihs iht => exact pair_iff (ihs _ hw.1 hf.1) (iht _ hw.2 hf.2) b
  | array n t ih => exact encList_iff v (fun a ha => ih a (hw.2 a ha) (hf a ha)) b
  | vec t ih =>
    refine vecOf_wire cfg E t v ?_ (fun a ha => ih a (hw a ha) (hf.2.2 a ha)) b
    have := hf.1
    refine Nat.lt_of_le_of_lt (Nat.le_mul_of_pos_right _ ?_) this
    cases t <;> simp only [Ty.elemBytes, Nat.lt_add_one, Nat.zero_lt_succ]
    case int k => cases k <;> decide
    case float f => cases f <;> decide
  | btreeMap k w ihk ihv | hashMap k w ihk ihv =>
    exact counted_iff hf.1 (encList_iff v fun e he =>
      pair_iff (ihk _ (hw.1 e he).1 (hf.2.2 e he).1) (ihv _ (hw.1 e he).2 (hf.2.2 e he).2)) b
  | btreeSet k ih | hashSet k ih | binaryHeap k ih =>
    exact counted_iff hf.1 (encList_iff v fun e he => ih _ (hw.1 e he) (hf.2.2 e he)) b
  | vector t ih => exact counted_iff hf.1 (encList_iff v fun e he => ih _ (hw e he) (hf.2.2 e he)) b
  | ext i => exact Iff.rfl

end Revision
