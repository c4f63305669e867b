import Verif.Proofs.Stream

/-! # Lemmas about running out of input -/

namespace Revision
namespace Prog

theorem exact_run (n : Nat) (f : Err → Err) (k : Bytes → Prog α) (s : Bytes) :
    (Prog.exact n f k).onSlice s =
      if n ≤ s.length then (k (s.take n)).onSlice (s.drop n) else .err (f .io) := by
  by_cases h : n ≤ s.length <;>
    simp [onSlice, Rd.bind_run, Rd.mapErr, Rd.readExact, Res.mapErr, h]

theorem take_run (n : Nat) (f : Err → Err) (k : Bytes → Prog α) (s : Bytes) :
    (Prog.take n f k).onSlice s =
      if n ≤ s.length then (k (s.take n)).onSlice (s.drop n) else .err (f .io) :=
  exact_run n f k s

theorem take_prefix (n : Nat) (p q : Bytes) (h : n ≤ p.length) : (p ++ q).take n = p.take n := by
  rw [List.take_append, Nat.sub_eq_zero_of_le h]; simp

theorem drop_prefix (n : Nat) (p q : Bytes) (h : n ≤ p.length) :
    (p ++ q).drop n = p.drop n ++ q := by
  rw [List.drop_append, Nat.sub_eq_zero_of_le h]; simp

/-- Where a program succeeds, every input that stops inside what it consumed gives an error
in `K`. -/
theorem short_prefix {K : Err → Prop} {P : Prog α} (hP : P.Short K) (p q r : Bytes) (a : α)
    (h : P.onSlice (p ++ q) = .ok (a, r)) (hr : r.length < q.length) :
    ∃ e, P.onSlice p = .err e ∧ K e := by
  induction P generalizing p q with
  | pure b =>
    simp only [onSlice_pure', Rd.pure_run, Res.ok.injEq, Prod.mk.injEq] at h
    rw [← h.2] at hr
    simp at hr
    omega
  | fail e => simp at h
  | panic => simp at h
  | exact n f k ih =>
    rw [exact_run] at h ⊢
    by_cases hl : n ≤ p.length
    · rw [if_pos (by rw [List.length_append]; omega), take_prefix _ _ _ hl, drop_prefix _ _ _ hl] at h
      rw [if_pos hl]
      exact ih _ (hP.2 _) _ _ h hr
    · rw [if_neg hl]
      exact ⟨_, rfl, hP.1⟩
  | take n f k ih =>
    rw [take_run] at h ⊢
    by_cases hl : n ≤ p.length
    · rw [if_pos (by rw [List.length_append]; omega), take_prefix _ _ _ hl, drop_prefix _ _ _ hl] at h
      rw [if_pos hl]
      exact ih _ (hP.2 _) _ _ h hr
    · rw [if_neg hl]
      exact ⟨_, rfl, hP.1⟩

/-- An error outside `K` is final: more input does not change it. -/
theorem final_err {K : Err → Prop} {P : Prog α} (hP : P.Short K) (s t : Bytes) (e : Err)
    (h : P.onSlice s = .err e) (he : ¬ K e) : P.onSlice (s ++ t) = .err e := by
  induction P generalizing s with
  | pure b => simp at h
  | fail e => simpa using h
  | panic => simp at h
  | exact n f k ih =>
    rw [exact_run] at h ⊢
    by_cases hl : n ≤ s.length
    · rw [if_pos (by rw [List.length_append]; omega), take_prefix _ _ _ hl, drop_prefix _ _ _ hl]
      rw [if_pos hl] at h
      exact ih _ (hP.2 _) _ h
    · rw [if_neg hl] at h
      simp only [Res.err.injEq] at h
      exact absurd (h ▸ hP.1) he
  | take n f k ih =>
    rw [take_run] at h ⊢
    by_cases hl : n ≤ s.length
    · rw [if_pos (by rw [List.length_append]; omega), take_prefix _ _ _ hl, drop_prefix _ _ _ hl]
      rw [if_pos hl] at h
      exact ih _ (hP.2 _) _ h
    · rw [if_neg hl] at h
      simp only [Res.err.injEq] at h
      exact absurd (h ▸ hP.1) he

theorem final_panic {P : Prog α} (s t : Bytes)
    (h : P.onSlice s = .panic) : P.onSlice (s ++ t) = .panic := by
  induction P generalizing s with
  | pure b => simp at h
  | fail e => simp at h
  | panic => simp
  | exact n f k ih =>
    rw [exact_run] at h ⊢
    by_cases hl : n ≤ s.length
    · rw [if_pos (by rw [List.length_append]; omega), take_prefix _ _ _ hl, drop_prefix _ _ _ hl]
      rw [if_pos hl] at h
      exact ih _ _ h
    · rw [if_neg hl] at h
      simp at h
  | take n f k ih =>
    rw [take_run] at h ⊢
    by_cases hl : n ≤ s.length
    · rw [if_pos (by rw [List.length_append]; omega), take_prefix _ _ _ hl, drop_prefix _ _ _ hl]
      rw [if_pos hl] at h
      exact ih _ _ h
    · rw [if_neg hl] at h
      simp at h

/-- Enough input always gets past the reads. -/
theorem more_input {K : Err → Prop} {P : Prog α} (hP : P.Sound K) (s : Bytes) :
    ∃ t, ∀ e, P.onSlice (s ++ t) = .err e → ¬ K e := by
  induction P generalizing s with
  | pure b => exact ⟨[], by intro e h; simp at h⟩
  | fail e => exact ⟨[], by intro e' h; simp at h; exact h ▸ hP⟩
  | panic => exact ⟨[], by intro e h; simp at h⟩
  | exact n f k ih =>
    let s' := s ++ List.replicate n 0
    have hl : n ≤ s'.length := by simp [s']
    obtain ⟨t, ht⟩ := ih (s'.take n) (hP _) (s'.drop n)
    refine ⟨List.replicate n 0 ++ t, ?_⟩
    rw [← List.append_assoc, exact_run, if_pos (by rw [List.length_append]; exact Nat.le_add_right_of_le hl),
      take_prefix _ _ _ hl, drop_prefix _ _ _ hl]
    exact ht
  | take n f k ih =>
    let s' := s ++ List.replicate n 0
    have hl : n ≤ s'.length := by simp [s']
    obtain ⟨t, ht⟩ := ih (s'.take n) (hP _) (s'.drop n)
    refine ⟨List.replicate n 0 ++ t, ?_⟩
    rw [← List.append_assoc, take_run, if_pos (by rw [List.length_append]; exact Nat.le_add_right_of_le hl),
      take_prefix _ _ _ hl, drop_prefix _ _ _ hl]
    exact ht

/-! ### Closure -/

variable {K : Err → Prop}

theorem Short.mono {K L : Err → Prop} {P : Prog α} (h : P.Short K) (hKL : ∀ e, K e → L e) :
    P.Short L := by
  induction P with
  | pure a => trivial
  | fail e => trivial
  | panic => trivial
  | exact n f k ih => exact ⟨hKL _ h.1, fun b => ih b (h.2 b)⟩
  | take n f k ih => exact ⟨hKL _ h.1, fun b => ih b (h.2 b)⟩

theorem Short.pure (a : α) : (Pure.pure a : Prog α).Short K := trivial
theorem Short.fail (e : Err) : (Prog.fail e : Prog α).Short K := trivial
theorem Short.panic : (Prog.panic : Prog α).Short K := trivial

theorem Short.bind {m : Prog α} {f : α → Prog β} (hm : m.Short K) (hf : ∀ a, (f a).Short K) :
    (m >>= f).Short K := by
  change (Prog.bind m f).Short K
  induction m with
  | pure a => exact hf a
  | fail e => trivial
  | panic => trivial
  | exact n g k ih => exact ⟨hm.1, fun b => ih b (hm.2 b)⟩
  | take n g k ih => exact ⟨hm.1, fun b => ih b (hm.2 b)⟩

theorem Short.ite {c : Prop} [Decidable c] {a b : Prog α} (ha : a.Short K) (hb : b.Short K) :
    (if c then a else b).Short K := by split <;> assumption

theorem Short.lift (x : Res α) : (Prog.lift x).Short K := by cases x <;> trivial

theorem Short.alloc (b : Bool) : (Prog.alloc b).Short K := by cases b <;> trivial

theorem Short.readExact (hio : K .io) (n : Nat) : (Prog.readExact n).Short K :=
  ⟨hio, fun _ => trivial⟩
theorem Short.takeExact (hio : K .io) (n : Nat) : (Prog.takeExact n).Short K :=
  ⟨hio, fun _ => trivial⟩
theorem Short.readByte (hio : K .io) : (Prog.readByte).Short K := ⟨hio, fun _ => trivial⟩

theorem Short.discard {m : Prog α} (h : m.Short K) : m.discard.Short K :=
  Short.bind h fun _ => trivial

theorem Short.readN (n : Nat) {m : Prog α} (h : m.Short K) : (Prog.readN n m).Short K := by
  induction n with
  | zero => trivial
  | succ n ih => exact Short.bind h fun _ => Short.bind ih fun _ => trivial

theorem Short.repeatN (n : Nat) {m : Prog Unit} (h : m.Short K) : (Prog.repeatN n m).Short K := by
  induction n with
  | zero => trivial
  | succ n ih => exact Short.bind h fun _ => ih

theorem Short.advance (hio : K .io) (n : Nat) : (Prog.advance n).Short K := by
  induction n using Nat.strongRecOn with
  | _ n ih =>
  rw [Prog.advance]
  split
  · trivial
  · exact ⟨hio, fun _ => ih _ (by omega)⟩

theorem Short.mapErr_any (g : Err → Err) (hg : ∀ e, K (g e)) (m : Prog α) :
    (m.mapErr g).Short K := by
  induction m with
  | pure a => trivial
  | fail e => trivial
  | panic => trivial
  | exact n f k ih => exact ⟨hg _, ih⟩
  | take n f k ih => exact ⟨hg _, ih⟩

theorem Short.readLE (hio : K .io) (w n : Nat) : (Prog.readLE w n).Short K :=
  Short.bind (Short.readExact hio n) fun _ => trivial

theorem Short.decodeU64 (hio : K .io) : Prog.decodeU64.Short K :=
  Short.bind (Short.readByte hio) fun _ =>
    Short.ite (.readLE hio _ _) <| Short.ite (.readLE hio _ _) <| Short.ite (.readLE hio _ _) <|
    Short.ite trivial <| Short.ite trivial trivial

theorem Short.decodeU128 (hio : K .io) : Prog.decodeU128.Short K :=
  Short.bind (Short.readByte hio) fun _ =>
    Short.ite (.readLE hio _ _) <| Short.ite (.readLE hio _ _) <| Short.ite (.readLE hio _ _) <|
    Short.ite (.readLE hio _ _) <| Short.ite trivial trivial

theorem Short.decInt (hio : K .io) (cfg : Cfg) (k : IntTy) : (Prog.decInt cfg k).Short K := by
  cases k <;> simp only [Prog.decInt]
  case u8 => exact .readLE hio _ _
  case i8 => exact .readLE hio _ _
  case u64 => exact .ite (.readLE hio _ _) (.decodeU64 hio)
  case usize => exact .ite (.readLE hio _ _) (.decodeU64 hio)
  case u128 => exact .ite (.readLE hio _ _) (.decodeU128 hio)
  case u16 => exact .ite (.readLE hio _ _) (.bind (.decodeU64 hio) fun _ => .lift _)
  case u32 => exact .ite (.readLE hio _ _) (.bind (.decodeU64 hio) fun _ => .lift _)
  case i16 =>
    exact .ite (.bind (.readLE hio _ _) fun _ => trivial) (.bind (.decodeU64 hio) fun _ => .lift _)
  case i32 =>
    exact .ite (.bind (.readLE hio _ _) fun _ => trivial) (.bind (.decodeU64 hio) fun _ => .lift _)
  case i64 =>
    exact .ite (.bind (.readLE hio _ _) fun _ => trivial) (.bind (.decodeU64 hio) fun _ => trivial)
  case isize =>
    exact .ite (.bind (.readLE hio _ _) fun _ => trivial) (.bind (.decodeU64 hio) fun _ => trivial)
  case i128 =>
    exact .ite (.bind (.readLE hio _ _) fun _ => trivial) (.bind (.decodeU128 hio) fun _ => trivial)

theorem Short.readLen (hio : K .io) (cfg : Cfg) : (Prog.readLen cfg).Short K :=
  .bind (.decInt hio cfg .usize) fun _ => trivial

theorem Short.readU32 (hio : K .io) (cfg : Cfg) : (Prog.readU32 cfg).Short K :=
  .bind (.decInt hio cfg .u32) fun _ => trivial

theorem Short.decString (hio : K .io) (cfg : Cfg) (cap : Nat → Bool) :
    (Prog.decString cfg cap).Short K :=
  .bind (.bind (.readLen hio cfg) fun _ => .ite trivial <| .bind (.alloc _) fun _ => .readExact hio _)
    fun _ => .lift _

theorem Short.decVec (hio : K .io) (cfg : Cfg) (cap : Nat → Bool) {m : Prog α} (h : m.Short K) :
    (Prog.decVec cfg cap m).Short K :=
  .bind (.readLen hio cfg) fun _ => .ite trivial <| .bind (.alloc _) fun _ => .readN _ h

theorem Short.decBulk (hio : K .io) (cfg : Cfg) (cap : Nat → Bool) (W w : Nat) :
    (Prog.decBulk cfg cap W w).Short K :=
  .bind (.readLen hio cfg) fun _ => .ite trivial <|
    .ite (.bind (.alloc _) fun _ => .bind (.takeExact hio _) fun _ => trivial) <|
    .ite (.bind (.alloc _) fun _ => .bind (.readExact hio _) fun _ => trivial) trivial

theorem Short.decBools (hio : K .io) (cfg : Cfg) (cap : Nat → Bool) :
    (Prog.decBools cfg cap).Short K :=
  .bind (.readLen hio cfg) fun _ => .ite trivial <| .bind (.alloc _) fun _ =>
    .bind (.readExact hio _) fun _ => .bind (.alloc _) fun _ => trivial

theorem Short.readColl (hio : K .io) (cfg : Cfg) (cap : Nat → Bool) {m : Prog α} (h : m.Short K)
    (build : List α → β) : (Prog.readColl cfg cap m build).Short K :=
  .bind (.readLen hio cfg) fun _ => .bind (.alloc _) fun _ => .bind (.readN _ h) fun _ => trivial

theorem Short.skipElems (hio : K .io) (cfg : Cfg) {m : Prog Unit} (h : m.Short K) :
    (Prog.skipElems cfg m).Short K :=
  .bind (.readLen hio cfg) fun _ => .repeatN _ h

theorem Short.skipBulk (hio : K .io) (cfg : Cfg) (w : Nat) : (Prog.skipBulk cfg w).Short K :=
  .bind (.readLen hio cfg) fun _ => .ite (.advance hio _) trivial

theorem Short.decPair {a : Prog α} {b : Prog β} (ha : a.Short K) (hb : b.Short K) :
    (Prog.decPair a b).Short K :=
  .bind ha fun _ => .bind hb fun _ => trivial

theorem Short.decChar (hio : K .io) : Prog.decChar.Short K := by
  refine .bind (.readByte hio) fun b => ?_
  refine .ite trivial <| .bind (.readExact hio _) fun rest => ?_
  split
  · split <;> trivial
  · trivial

end Prog

open Prog

theorem vecP_short {K : Err → Prop} (hio : K .io) (cfg : Cfg) (E : Env ι) (t : Ty ι)
    (m : Prog (t.denote E.X)) (h : m.Short K) : (vecP cfg E t m).Short K := by
  have hv := Short.decVec hio cfg (E.cap t) h
  cases t <;> try exact hv
  · exact .ite (.decBools hio _ _) hv
  · exact .ite (.decBulk hio _ _ _ _) hv
  · exact .ite (.decBulk hio _ _ _ _) hv
  · exact .ite (.decBulk hio _ _ _ _) hv

theorem vecSkipP_short {K : Err → Prop} (hio : K .io) (cfg : Cfg) (t : Ty ι)
    (m : Prog Unit) (h : m.Short K) : (vecSkipP cfg t m).Short K := by
  have hv := Short.skipElems hio cfg h
  cases t <;> try exact hv
  · exact .ite (.bind (.readLen hio cfg) fun _ => .advance hio _) hv
  · exact .ite (.skipBulk hio _ _) hv
  · exact .ite (.skipBulk hio _ _) hv
  · exact .ite (.skipBulk hio _ _) hv

/-- `K` is either only `io` and the type is plain, or contains what `Result` and `Bound` make of an
error. -/
theorem Ty.decP_short {K : Err → Prop} (hio : K .io) (cfg : Cfg) (E : Env ι)
    (ext : (i : ι) → Prog (E.X i)) (hext : ∀ i, (ext i).Short K) (t : Ty ι)
    (ht : t.plainErrors = true ∨ K .deserialize) :
    (t.decP cfg E ext).Short K := by
  induction t with
  | ext i => exact hext i
  | unit => trivial
  | bool => exact .bind (.readByte hio) fun _ => .ite trivial <| .ite trivial trivial
  | int k => exact .decInt hio cfg k
  | float f => exact .readLE hio _ _
  | char => exact .decChar hio
  | string => exact .decString hio _ _
  | path => exact .bind (.decString hio _ _) fun _ => trivial
  | bytes =>
    exact .bind (.readLen hio cfg) fun _ => .ite trivial <| .bind (.alloc _) fun _ => .takeExact hio _
  | uuid => exact .readLE hio _ _
  | duration =>
    exact .bind (.decInt hio cfg .u64) fun _ => .bind (.decInt hio cfg .u32) fun _ => .lift _
  | systemTime =>
    exact .bind (.decInt hio cfg .u64) fun _ => .bind (.decInt hio cfg .u32) fun _ =>
      .bind (.lift _) fun _ => .ite trivial trivial
  | notNan f => exact .bind (.readLE hio _ _) fun _ => .ite trivial trivial
  | option t ih =>
    exact .bind (.decInt hio cfg .u8) fun _ => .ite trivial <|
      .ite (.bind (ih ht) fun _ => trivial) trivial
  | result t e ih1 ih2 =>
    have hd : K .deserialize := by simpa [Ty.plainErrors] using ht
    exact .bind (.readU32 hio cfg) fun _ =>
      .ite (.bind (.mapErr_any _ (fun _ => hd) _) fun _ => trivial) <|
      .ite (.bind (.mapErr_any _ (fun _ => hd) _) fun _ => trivial) trivial
  | bound t ih =>
    have hd : K .deserialize := by simpa [Ty.plainErrors] using ht
    exact .bind (.readU32 hio cfg) fun _ => .ite trivial <|
      .ite (.bind (.mapErr_any _ (fun _ => hd) _) fun _ => trivial) <|
      .ite (.bind (.mapErr_any _ (fun _ => hd) _) fun _ => trivial) trivial
  | wrap t ih => exact ih ht
  | pair s t ih1 ih2 =>
    simp only [Ty.plainErrors, Bool.and_eq_true] at ht
    exact .decPair (ih1 (ht.imp And.left id)) (ih2 (ht.imp And.right id))
  | array n t ih => exact .readN _ (ih ht)
  | vec t ih =>
    exact vecP_short hio cfg E t _ (ih ht)
  | btreeMap k v ih1 ih2 =>
    simp only [Ty.plainErrors, Bool.and_eq_true] at ht
    exact .readColl hio _ _ (.decPair (ih1 (ht.imp And.left id)) (ih2 (ht.imp And.right id))) _
  | hashMap k v ih1 ih2 =>
    simp only [Ty.plainErrors, Bool.and_eq_true] at ht
    exact .readColl hio _ _ (.decPair (ih1 (ht.imp And.left id)) (ih2 (ht.imp And.right id))) _
  | btreeSet t ih => exact .readColl hio _ _ (ih ht) _
  | hashSet t ih => exact .readColl hio _ _ (ih ht) _
  | binaryHeap t ih => exact .readColl hio _ _ (ih ht) _
  | vector t ih => exact .readColl hio _ _ (ih ht) _

/-- The skips never rewrite an error. -/
theorem Ty.skipP_short {K : Err → Prop} (hio : K .io) (cfg : Cfg) (E : Env ι)
    (ext : (i : ι) → Prog Unit) (hext : ∀ i, (ext i).Short K) (t : Ty ι) :
    (t.skipP cfg E ext).Short K := by
  induction t with
  | ext i => exact hext i
  | unit => trivial
  | bool =>
    exact .discard <| .bind (.readByte hio) fun _ => .ite trivial <| .ite trivial trivial
  | int k => exact .discard (.decInt hio cfg k)
  | float f => exact .discard (.readLE hio _ _)
  | char => exact .discard (.decChar hio)
  | string => exact .bind (.readLen hio cfg) fun _ => .advance hio _
  | path => exact .discard <| .bind (.decString hio _ _) fun _ => trivial
  | bytes => exact .bind (.readLen hio cfg) fun _ => .advance hio _
  | uuid => exact .advance hio _
  | duration =>
    exact .discard <|
      .bind (.decInt hio cfg .u64) fun _ => .bind (.decInt hio cfg .u32) fun _ => .lift _
  | systemTime =>
    exact .bind (.discard (.decInt hio cfg .u64)) fun _ => .discard (.decInt hio cfg .u32)
  | notNan f => exact .discard (.readLE hio _ _)
  | option t ih =>
    exact .bind (.decInt hio cfg .u8) fun _ => .ite trivial <| .ite ih trivial
  | result t e ih1 ih2 =>
    exact .bind (.readU32 hio cfg) fun _ => .ite ih1 <| .ite ih2 trivial
  | bound t ih =>
    exact .bind (.readU32 hio cfg) fun _ => .ite trivial <| .ite ih <| .ite ih trivial
  | wrap t ih => exact ih
  | pair s t ih1 ih2 => exact .bind ih1 fun _ => ih2
  | array n t ih => exact .repeatN _ ih
  | vec t ih =>
    exact vecSkipP_short hio cfg t _ ih
  | btreeMap k v ih1 ih2 => exact .skipElems hio _ (.bind ih1 fun _ => ih2)
  | hashMap k v ih1 ih2 => exact .skipElems hio _ (.bind ih1 fun _ => ih2)
  | btreeSet t ih => exact .skipElems hio _ ih
  | hashSet t ih => exact .skipElems hio _ ih
  | binaryHeap t ih => exact .skipElems hio _ ih
  | vector t ih => exact .skipElems hio _ ih

/-! ### No other error is `Error::Io` -/

namespace Prog

/-- `Error::Io` only comes from the reader. -/
abbrev IoSound (P : Prog α) : Prop := P.Sound (· = .io)

theorem IoSound.pure (a : α) : (Pure.pure a : Prog α).IoSound := trivial
theorem IoSound.fail {e : Err} (h : e ≠ .io) : (Prog.fail e : Prog α).IoSound := h

theorem IoSound.bind {m : Prog α} {f : α → Prog β} (hm : m.IoSound) (hf : ∀ a, (f a).IoSound) :
    (m >>= f).IoSound := by
  change (Prog.bind m f).IoSound
  induction m with
  | pure a => exact hf a
  | fail e => exact hm
  | panic => trivial
  | exact n g k ih => exact fun b => ih b (hm b)
  | take n g k ih => exact fun b => ih b (hm b)

theorem IoSound.ite {c : Prop} [Decidable c] {a b : Prog α} (ha : a.IoSound) (hb : b.IoSound) :
    (if c then a else b).IoSound := by split <;> assumption

theorem IoSound.lift {x : Res α} (h : x ≠ .err .io) : (Prog.lift x).IoSound := by
  cases x with
  | ok a => trivial
  | err e => intro he; exact h (by rw [he])
  | panic => trivial

theorem IoSound.alloc (b : Bool) : (Prog.alloc b).IoSound := by cases b <;> trivial
theorem IoSound.readExact (n : Nat) : (Prog.readExact n).IoSound := fun _ => trivial
theorem IoSound.takeExact (n : Nat) : (Prog.takeExact n).IoSound := fun _ => trivial
theorem IoSound.readByte : (Prog.readByte).IoSound := fun _ => trivial

theorem IoSound.readN (n : Nat) {m : Prog α} (h : m.IoSound) : (Prog.readN n m).IoSound := by
  induction n with
  | zero => trivial
  | succ n ih => exact IoSound.bind h fun _ => IoSound.bind ih fun _ => trivial

theorem IoSound.mapErr {g : Err → Err} (hg : ∀ e, g e ≠ .io) (m : Prog α) :
    (m.mapErr g).IoSound := by
  induction m with
  | pure a => trivial
  | fail e => exact hg e
  | panic => trivial
  | exact n f k ih => exact ih
  | take n f k ih => exact ih

theorem IoSound.readLE (w n : Nat) : (Prog.readLE w n).IoSound :=
  IoSound.bind (IoSound.readExact n) fun _ => trivial

theorem IoSound.decodeU64 : Prog.decodeU64.IoSound :=
  IoSound.bind IoSound.readByte fun _ =>
    IoSound.ite (.readLE _ _) <| IoSound.ite (.readLE _ _) <| IoSound.ite (.readLE _ _) <|
    IoSound.ite (IoSound.fail (by simp)) <| IoSound.ite (IoSound.fail (by simp)) trivial

theorem IoSound.decodeU128 : Prog.decodeU128.IoSound :=
  IoSound.bind IoSound.readByte fun _ =>
    IoSound.ite (.readLE _ _) <| IoSound.ite (.readLE _ _) <| IoSound.ite (.readLE _ _) <|
    IoSound.ite (.readLE _ _) <| IoSound.ite (IoSound.fail (by simp)) trivial

theorem tryIntoU_io (w : Nat) (x : BitVec 64) : tryIntoU w x ≠ .err .io := by
  unfold tryIntoU; split <;> simp

theorem tryIntoI_io (w : Nat) (x : BitVec 64) : tryIntoI w x ≠ .err .io := by
  unfold tryIntoI; split <;> simp

theorem fromUtf8_io (b : Bytes) : fromUtf8 b ≠ .err .io := by
  unfold fromUtf8; split <;> simp

theorem durationNew_io (a : BitVec 64) (b : BitVec 32) : durationNew a b ≠ .err .io := by
  unfold durationNew
  split
  · simp
  · simp only; split <;> simp

theorem IoSound.decInt (cfg : Cfg) (k : IntTy) : (Prog.decInt cfg k).IoSound := by
  cases k <;> simp only [Prog.decInt]
  case u8 => exact .readLE _ _
  case i8 => exact .readLE _ _
  case u64 => exact .ite (.readLE _ _) .decodeU64
  case usize => exact .ite (.readLE _ _) .decodeU64
  case u128 => exact .ite (.readLE _ _) .decodeU128
  case u16 => exact .ite (.readLE _ _) (.bind .decodeU64 fun _ => .lift (tryIntoU_io _ _))
  case u32 => exact .ite (.readLE _ _) (.bind .decodeU64 fun _ => .lift (tryIntoU_io _ _))
  case i16 =>
    exact .ite (.bind (.readLE _ _) fun _ => trivial)
      (.bind .decodeU64 fun _ => .lift (tryIntoI_io _ _))
  case i32 =>
    exact .ite (.bind (.readLE _ _) fun _ => trivial)
      (.bind .decodeU64 fun _ => .lift (tryIntoI_io _ _))
  case i64 => exact .ite (.bind (.readLE _ _) fun _ => trivial) (.bind .decodeU64 fun _ => trivial)
  case isize => exact .ite (.bind (.readLE _ _) fun _ => trivial) (.bind .decodeU64 fun _ => trivial)
  case i128 =>
    exact .ite (.bind (.readLE _ _) fun _ => trivial) (.bind .decodeU128 fun _ => trivial)

theorem IoSound.readLen (cfg : Cfg) : (Prog.readLen cfg).IoSound :=
  .bind (.decInt cfg .usize) fun _ => trivial

theorem IoSound.readU32 (cfg : Cfg) : (Prog.readU32 cfg).IoSound :=
  .bind (.decInt cfg .u32) fun _ => trivial

theorem IoSound.decString (cfg : Cfg) (cap : Nat → Bool) : (Prog.decString cfg cap).IoSound :=
  .bind (.bind (.readLen cfg) fun _ => .ite trivial <| .bind (.alloc _) fun _ => .readExact _)
    fun _ => .lift (fromUtf8_io _)

theorem IoSound.decVec (cfg : Cfg) (cap : Nat → Bool) {m : Prog α} (h : m.IoSound) :
    (Prog.decVec cfg cap m).IoSound :=
  .bind (.readLen cfg) fun _ => .ite trivial <| .bind (.alloc _) fun _ => .readN _ h

theorem IoSound.decBulk (cfg : Cfg) (cap : Nat → Bool) (W w : Nat) :
    (Prog.decBulk cfg cap W w).IoSound :=
  .bind (.readLen cfg) fun _ => .ite trivial <|
    .ite (.bind (.alloc _) fun _ => .bind (.takeExact _) fun _ => trivial) <|
    .ite (.bind (.alloc _) fun _ => .bind (.readExact _) fun _ => trivial) (.fail (by simp))

theorem IoSound.decBools (cfg : Cfg) (cap : Nat → Bool) : (Prog.decBools cfg cap).IoSound :=
  .bind (.readLen cfg) fun _ => .ite trivial <| .bind (.alloc _) fun _ =>
    .bind (.readExact _) fun _ => .bind (.alloc _) fun _ => trivial

theorem IoSound.readColl (cfg : Cfg) (cap : Nat → Bool) {m : Prog α} (h : m.IoSound)
    (build : List α → β) : (Prog.readColl cfg cap m build).IoSound :=
  .bind (.readLen cfg) fun _ => .bind (.alloc _) fun _ => .bind (.readN _ h) fun _ => trivial

theorem IoSound.decPair {a : Prog α} {b : Prog β} (ha : a.IoSound) (hb : b.IoSound) :
    (Prog.decPair a b).IoSound :=
  .bind ha fun _ => .bind hb fun _ => trivial

theorem IoSound.decChar : Prog.decChar.IoSound := by
  refine .bind .readByte fun b => ?_
  refine .ite (.fail (by simp)) <| .bind (.readExact _) fun rest => ?_
  split
  · split <;> trivial
  · exact .fail (by simp)

end Prog

theorem vecP_ioSound (cfg : Cfg) (E : Env ι) (t : Ty ι)
    (m : Prog (t.denote E.X)) (h : m.IoSound) : (vecP cfg E t m).IoSound := by
  have hv := IoSound.decVec cfg (E.cap t) h
  cases t <;> try exact hv
  · exact .ite (.decBools _ _) hv
  · exact .ite (.decBulk _ _ _ _) hv
  · exact .ite (.decBulk _ _ _ _) hv
  · exact .ite (.decBulk _ _ _ _) hv

theorem Ty.decP_ioSound (cfg : Cfg) (E : Env ι)
    (ext : (i : ι) → Prog (E.X i)) (hext : ∀ i, (ext i).IoSound) (t : Ty ι) :
    (t.decP cfg E ext).IoSound := by
  have hd : ∀ e, toDeserialize e ≠ .io := fun _ => by simp [toDeserialize]
  induction t with
  | ext i => exact hext i
  | unit => trivial
  | bool => exact .bind .readByte fun _ => .ite trivial <| .ite trivial (.fail (by simp))
  | int k => exact .decInt cfg k
  | float f => exact .readLE _ _
  | char => exact .decChar
  | string => exact .decString _ _
  | path => exact .bind (.decString _ _) fun _ => trivial
  | bytes =>
    exact .bind (.readLen cfg) fun _ => .ite trivial <| .bind (.alloc _) fun _ => .takeExact _
  | uuid => exact .readLE _ _
  | duration =>
    exact .bind (.decInt cfg .u64) fun _ => .bind (.decInt cfg .u32) fun _ =>
      .lift (durationNew_io _ _)
  | systemTime =>
    exact .bind (.decInt cfg .u64) fun _ => .bind (.decInt cfg .u32) fun _ =>
      .bind (.lift (durationNew_io _ _)) fun _ => .ite trivial trivial
  | notNan f => exact .bind (.readLE _ _) fun _ => .ite (.fail (by simp)) trivial
  | option t ih =>
    exact .bind (.decInt cfg .u8) fun _ => .ite trivial <|
      .ite (.bind ih fun _ => trivial) (.fail (by simp))
  | result t e ih1 ih2 =>
    exact .bind (.readU32 cfg) fun _ =>
      .ite (.bind (.mapErr hd _) fun _ => trivial) <|
      .ite (.bind (.mapErr hd _) fun _ => trivial) (.fail (by simp))
  | bound t ih =>
    exact .bind (.readU32 cfg) fun _ => .ite trivial <|
      .ite (.bind (.mapErr hd _) fun _ => trivial) <|
      .ite (.bind (.mapErr hd _) fun _ => trivial) (.fail (by simp))
  | wrap t ih => exact ih
  | pair s t ih1 ih2 => exact .decPair ih1 ih2
  | array n t ih => exact .readN _ ih
  | vec t ih => exact vecP_ioSound cfg E t _ ih
  | btreeMap k v ih1 ih2 => exact .readColl _ _ (.decPair ih1 ih2) _
  | hashMap k v ih1 ih2 => exact .readColl _ _ (.decPair ih1 ih2) _
  | btreeSet t ih => exact .readColl _ _ ih _
  | hashSet t ih => exact .readColl _ _ ih _
  | binaryHeap t ih => exact .readColl _ _ ih _
  | vector t ih => exact .readColl _ _ ih _

/-! ### Bulk vectors element by element -/

theorem onSlice_length {P : Prog α} {s r : Bytes} {a : α} (h : P.onSlice s = .ok (a, r)) :
    r.length ≤ s.length := by
  induction P generalizing s with
  | pure b => simp at h; simp [h.2]
  | fail e => simp at h
  | panic => simp at h
  | exact n f k ih =>
    rw [exact_run] at h
    split at h
    · have := ih _ h; simp at this; omega
    · simp at h
  | take n f k ih =>
    rw [take_run] at h
    split at h
    · have := ih _ h; simp at this; omega
    · simp at h

theorem readLen_length (cfg : Cfg) {s r : Bytes} {n : Nat} (h : readLen cfg s = .ok (n, r)) :
    r.length ≤ s.length := by
  rw [← Prog.onSlice_readLen] at h
  exact onSlice_length h

theorem readN_readLE (W w n : Nat) (s : Bytes) :
    Rd.readN n (readLE W w) s = (do
      let b ← Rd.readExact (n * w)
      pure ((splitN w n b).map fun e => BitVec.ofNat W (leVal e)) : Rd (List (BitVec W))) s := by
  induction n generalizing s with
  | zero => simp [Rd.readN, Rd.bind_run, Rd.readExact, splitN]
  | succ n ih =>
    have hk : (n + 1) * w = w + n * w := by rw [Nat.add_mul, Nat.one_mul, Nat.add_comm]
    rw [Rd.readN, hk]
    by_cases hl : w ≤ s.length
    · have h1 : readLE W w s = .ok (BitVec.ofNat W (leVal (s.take w)), s.drop w) := by
        simp [readLE, Rd.bind_run, Rd.readExact, hl]
      rw [Rd.bind_of_ok h1, Rd.bind_run, ih]
      by_cases hl2 : w + n * w ≤ s.length
      · have hl3 : n * w ≤ s.length - w := by omega
        have e1 : List.take (n * w) (s.drop w) = (s.take (w + n * w)).drop w := by
          rw [List.take_drop]
        have e2 : List.take w (s.take (w + n * w)) = s.take w := by
          rw [List.take_take, Nat.min_eq_left (by omega)]
        simp [Rd.bind_run, Rd.readExact, hl2, hl3, splitN, e1, e2]
      · have hl3 : ¬ n * w ≤ s.length - w := by omega
        simp [Rd.bind_run, Rd.readExact, hl2, hl3]
    · have h1 : readLE W w s = .err .io := by simp [readLE, Rd.bind_run, Rd.readExact, hl]
      have : ¬ w + n * w ≤ s.length := by omega
      rw [Rd.bind_of_err h1]
      simp [Rd.bind_run, Rd.readExact, this]

end Revision
