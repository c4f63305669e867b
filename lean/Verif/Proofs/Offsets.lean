import Verif.Model.Indexed
import Verif.Proofs.Prim
import Verif.Proofs.BytesOrd

/-! Helper lemmas: slices, offset tables and their validators. -/

namespace Revision

theorem slice_length {b : Bytes} {i j : Nat} (h : i ≤ j) (hj : j ≤ b.length) :
    (slice b i j).length = j - i := by
  simp [slice]; omega

theorem slice_append_slice {b : Bytes} {i j k : Nat} (h1 : i ≤ j) (h2 : j ≤ k) :
    slice b i j ++ slice b j k = slice b i k := by
  unfold slice
  have e : b.take k = b.take j ++ (b.take k).drop j := by
    conv => lhs; rw [← List.take_append_drop j (b.take k)]
    rw [List.take_take, Nat.min_eq_left h2]
  by_cases hj : j ≤ b.length
  · conv => rhs; rw [e]
    rw [List.drop_append_of_le_length (by simp; omega)]
  · have e1 : b.take j = b := List.take_of_length_le (by omega)
    have e2 : b.take k = b := List.take_of_length_le (by omega)
    rw [e1, e2, List.drop_of_length_le (l := b) (i := j) (by omega), List.append_nil]

theorem slice_self (b : Bytes) (i : Nat) : slice b i i = [] := by
  unfold slice; exact List.drop_of_length_le (by simp; omega)

theorem slice_infix (b : Bytes) (i j : Nat) : slice b i j <:+: b :=
  ((b.take j).drop_suffix i).isInfix.trans (b.take_prefix j).isInfix

theorem slice_to_end (b : Bytes) (i : Nat) : slice b i b.length = b.drop i := by
  unfold slice; rw [List.take_length]

theorem slice_append_mid (a b c : Bytes) {i j : Nat} (hi : i = a.length) (hj : j = i + b.length) :
    slice (a ++ (b ++ c)) i j = b := by
  unfold slice
  subst hi; subst hj
  rw [List.take_append, List.drop_append]
  simp

theorem sliceR_ok {b : Bytes} {i j : Nat} (h : i ≤ j) (hj : j ≤ b.length) :
    sliceR b i j = .ok (slice b i j) := by
  unfold sliceR; rw [if_pos ⟨h, hj⟩]

theorem sliceR_eq_ok {b x : Bytes} {i j : Nat} :
    sliceR b i j = .ok x ↔ i ≤ j ∧ j ≤ b.length ∧ x = slice b i j := by
  unfold sliceR
  split
  · rename_i h; simp [h, eq_comm]
  · rename_i h
    constructor
    · intro h; simp at h
    · rintro ⟨h1, h2, _⟩; exact absurd ⟨h1, h2⟩ h

theorem getR_some {b : Bytes} {i j : Nat} (h : i ≤ j) (hj : j ≤ b.length) :
    getR b i j = some (slice b i j) := by
  unfold getR; rw [if_pos ⟨h, hj⟩]

theorem getR_eq_some {b x : Bytes} {i j : Nat} :
    getR b i j = some x ↔ i ≤ j ∧ j ≤ b.length ∧ x = slice b i j := by
  unfold getR
  split
  · rename_i h; simp [h, eq_comm]
  · rename_i h
    constructor
    · intro h; simp at h
    · rintro ⟨h1, h2, _⟩; exact absurd ⟨h1, h2⟩ h

/-- The little-endian number at a position. -/
def u32At (b : Bytes) (off : Nat) : Nat := leVal (slice b off (off + 4))

theorem decodeU32At_ok {b : Bytes} {off : Nat} (h : off + 4 ≤ b.length) :
    decodeU32At b off = .ok (u32At b off) := by
  unfold decodeU32At; rw [sliceR_ok (by omega) h]; rfl

theorem decodeU32At_panic {b : Bytes} {off : Nat} (h : ¬ off + 4 ≤ b.length) :
    decodeU32At b off = .panic := by
  unfold decodeU32At sliceR; rw [if_neg (by omega)]; rfl

theorem u32At_lt {b : Bytes} {off : Nat} (h : off + 4 ≤ b.length) : u32At b off < 2 ^ 32 := by
  have := leVal_lt (slice b off (off + 4))
  rw [slice_length (by omega) h] at this
  have e : off + 4 - off = 4 := by omega
  rw [e] at this
  unfold u32At; simpa using this

theorem slices_flatten (b : Bytes) (f : Nat → Nat) (n : Nat) (hf : ∀ i < n, f i ≤ f (i + 1)) :
    ((List.range n).map fun i => slice b (f i) (f (i + 1))).flatten = slice b (f 0) (f n) ∧
      f 0 ≤ f n := by
  induction n with
  | zero => simp [slice_self]
  | succ n ih =>
    obtain ⟨ih1, ih2⟩ := ih (fun i hi => hf i (by omega))
    have h := hf n (by omega)
    refine ⟨?_, by omega⟩
    rw [List.range_succ, List.map_append, List.flatten_append, ih1]
    simp only [List.map_cons, List.map_nil, List.flatten_cons, List.flatten_nil, List.append_nil]
    exact slice_append_slice ih2 h

theorem chain_mono {f : Nat → Nat} {n : Nat} (h : ∀ j, j + 1 < n → f j < f (j + 1)) :
    ∀ i j, i < j → j < n → f i < f j := by
  intro i j hij hj
  induction j with
  | zero => omega
  | succ j ih =>
    by_cases e : i = j
    · subst e; exact h i hj
    · exact Nat.lt_trans (ih (by omega) (by omega)) (h j hj)

theorem validateLoop_iff (t : Bytes) (stride L : Nat) : ∀ n i last,
    (∀ j < n, (i + j) * stride + 4 ≤ t.length) →
    (validateLoop t stride L n i last = .ok () ↔
      (∀ j < n, u32At t ((i + j) * stride) ≤ L) ∧
      (∀ j, j + 1 < n → u32At t ((i + j) * stride) < u32At t ((i + (j + 1)) * stride)) ∧
      (∀ p, last = some p → 0 < n → p < u32At t (i * stride))) ∧
    validateLoop t stride L n i last ≠ .panic := by
  intro n
  induction n with
  | zero =>
    intro i last _
    refine ⟨⟨fun _ => ⟨by omega, by omega, by omega⟩, fun _ => rfl⟩, by simp [validateLoop]⟩
  | succ n ih =>
    intro i last hb
    have hb0 : i * stride + 4 ≤ t.length := hb 0 (by omega)
    obtain ⟨ih1, ih2⟩ := ih (i + 1) (some (u32At t (i * stride))) (fun j hj => by
      have := hb (j + 1) (by omega)
      rw [show i + 1 + j = i + (j + 1) by omega]; exact this)
    have e : validateLoop t stride L (n + 1) i last =
        (if u32At t (i * stride) > L then .err (.offsetOutOfRange (u32At t (i * stride)) L)
        else match last with
          | some prev =>
            if u32At t (i * stride) ≤ prev then .err .offsetsNonMonotonic
            else validateLoop t stride L n (i + 1) (some (u32At t (i * stride)))
          | none => validateLoop t stride L n (i + 1) (some (u32At t (i * stride)))) := by
      rw [validateLoop, decodeU32At_ok hb0]; rfl
    have key : (validateLoop t stride L n (i + 1) (some (u32At t (i * stride))) = .ok () ↔
        (∀ j < n, u32At t ((i + (j + 1)) * stride) ≤ L) ∧
        (∀ j, j + 1 < n + 1 → u32At t ((i + j) * stride) < u32At t ((i + (j + 1)) * stride))) := by
      rw [ih1]
      constructor
      · rintro ⟨a, b, c⟩
        refine ⟨fun j hj => ?_, fun j hj => ?_⟩
        · have := a j hj
          rwa [show i + 1 + j = i + (j + 1) by omega] at this
        · cases j with
          | zero => exact c _ rfl (by omega)
          | succ j =>
            have := b j (by omega)
            rwa [show i + 1 + j = i + (j + 1) by omega,
              show i + 1 + (j + 1) = i + (j + 1 + 1) by omega] at this
      · rintro ⟨a, b⟩
        refine ⟨fun j hj => ?_, fun j hj => ?_, fun p hp hn => ?_⟩
        · rw [show i + 1 + j = i + (j + 1) by omega]; exact a j hj
        · have := b (j + 1) (by omega)
          rwa [show i + 1 + j = i + (j + 1) by omega,
              show i + 1 + (j + 1) = i + (j + 1 + 1) by omega]
        · injection hp with hp; subst hp
          have := b 0 (by omega)
          simpa using this
    have split0 : (∀ j < n + 1, u32At t ((i + j) * stride) ≤ L) ↔
        u32At t (i * stride) ≤ L ∧ ∀ j < n, u32At t ((i + (j + 1)) * stride) ≤ L := by
      constructor
      · intro h; exact ⟨by simpa using h 0 (by omega), fun j hj => h (j + 1) (by omega)⟩
      · rintro ⟨a, b⟩ j hj
        cases j with
        | zero => simpa using a
        | succ j => exact b j (by omega)
    rw [e, split0]
    by_cases hL : u32At t (i * stride) > L
    · rw [if_pos hL]
      refine ⟨⟨nofun, fun ⟨⟨h, _⟩, _⟩ => by omega⟩, by simp⟩
    · rw [if_neg hL]
      cases last with
      | none =>
        refine ⟨?_, ih2⟩
        simp only [key]
        constructor
        · rintro ⟨a, b⟩; exact ⟨⟨by omega, a⟩, b, by simp⟩
        · rintro ⟨⟨_, a⟩, b, _⟩; exact ⟨a, b⟩
      | some prev =>
        by_cases hp : u32At t (i * stride) ≤ prev
        · simp only [if_pos hp]
          refine ⟨⟨nofun, fun ⟨_, _, h⟩ => ?_⟩, by simp⟩
          have := h prev rfl (by omega); omega
        · simp only [if_neg hp]
          refine ⟨?_, ih2⟩
          rw [key]
          constructor
          · rintro ⟨a, b⟩
            refine ⟨⟨by omega, a⟩, b, ?_⟩
            intro p h _; injection h with h; omega
          · rintro ⟨⟨_, a⟩, b, _⟩; exact ⟨a, b⟩

/-- The struct/seq/key validator in closed form. -/
theorem validateStructPrologue_iff {t : Bytes} {n stride L : Nat}
    (hb : ∀ j < n, j * stride + 4 ≤ t.length) :
    (validateStructPrologue t n stride L = .ok () ↔
      (∀ j < n, u32At t (j * stride) ≤ L) ∧
      (∀ j, j + 1 < n → u32At t (j * stride) < u32At t ((j + 1) * stride))) ∧
    validateStructPrologue t n stride L ≠ .panic := by
  have h := validateLoop_iff t stride L n 0 none (fun j hj => by simpa using hb j hj)
  unfold validateStructPrologue
  refine ⟨?_, h.2⟩
  rw [h.1]; simp

/-! ### Tables as lists -/

/-- The bytes of a table of offsets. -/
def tbl (offs : List Nat) : Bytes := (offs.map (leBytes 4)).flatten

theorem tbl_length (offs : List Nat) : (tbl offs).length = offs.length * 4 := by
  induction offs with
  | nil => rfl
  | cons o os ih => simp only [tbl, List.map_cons, List.flatten_cons, List.length_append,
      leBytes_length, List.length_cons] at *; omega

theorem exists_tbl : ∀ (n : Nat) (b : Bytes), b.length = n * 4 →
    ∃ offs : List Nat, offs.length = n ∧ b = tbl offs ∧ ∀ o ∈ offs, o < 2 ^ 32 := by
  intro n
  induction n with
  | zero => intro b h; exact ⟨[], rfl, List.eq_nil_of_length_eq_zero (by omega), by simp⟩
  | succ n ih =>
    intro b h
    obtain ⟨os, h1, h2, h3⟩ := ih (b.drop 4) (by simp; omega)
    have hl : (b.take 4).length = 4 := by simp; omega
    refine ⟨leVal (b.take 4) :: os, by simp [h1], ?_, ?_⟩
    · have e : leBytes 4 (leVal (b.take 4)) = b.take 4 := by
        have := leBytes_leVal (b.take 4); rwa [hl] at this
      show b = leBytes 4 (leVal (b.take 4)) ++ tbl os
      rw [e, ← h2, List.take_append_drop]
    · intro o ho
      cases List.mem_cons.1 ho with
      | inl h => subst h; have := leVal_lt (b.take 4); rw [hl] at this; simpa using this
      | inr h => exact h3 o h

theorem u32At_tbl (offs : List Nat) (rest : Bytes) (i : Nat) (hi : i < offs.length)
    (ho : offs[i] < 2 ^ 32) : u32At (tbl offs ++ rest) (i * 4) = offs[i] := by
  induction offs generalizing i with
  | nil => simp at hi
  | cons o os ih =>
    have e : tbl (o :: os) ++ rest = leBytes 4 o ++ (tbl os ++ rest) := by
      simp [tbl, List.append_assoc]
    cases i with
    | zero =>
      rw [e]; unfold u32At
      have := slice_append_mid [] (leBytes 4 o) (tbl os ++ rest) (i := 0) (j := 4) rfl
        (by simp [leBytes_length])
      rw [List.nil_append] at this
      show leVal (slice _ 0 4) = _
      rw [this, leVal_leBytes]
      exact Nat.mod_eq_of_lt (by simpa using ho)
    | succ i =>
      have h := ih i (by simpa using hi) (by simpa using ho)
      rw [e]
      have hs : u32At (leBytes 4 o ++ (tbl os ++ rest)) ((i + 1) * 4) =
          u32At (tbl os ++ rest) (i * 4) := by
        unfold u32At slice
        have e1 : (i + 1) * 4 = 4 + i * 4 := by omega
        rw [e1, List.take_append, List.drop_append]
        have l4 : (leBytes 4 o).length = 4 := leBytes_length 4 o
        rw [List.drop_of_length_le (by simp [l4])]
        rw [l4]
        simp only [List.nil_append, List.length_take, l4]
        rw [show 4 + i * 4 - min (4 + i * 4 + 4) 4 = i * 4 by omega,
          show 4 + i * 4 + 4 - 4 = i * 4 + 4 by omega]
      rw [hs, h]; rfl

/-! ### Struct walker -/

theorem u32At_slice_zero {p : Bytes} {m off : Nat} (h : off + 4 ≤ m) :
    u32At (slice p 0 m) off = u32At p off := by
  unfold u32At slice
  rw [List.drop_zero, List.take_take, Nat.min_eq_left h]

theorem structWalker_iff {p : Bytes} {rev n : Nat} :
    (IndexedStructWalker.fromPayload p rev n = .ok ⟨p, n, rev⟩ ↔
      n * 4 ≤ p.length ∧
      (∀ j < n, u32At p (j * 4) ≤ p.length % 2 ^ 32) ∧
      (∀ j, j + 1 < n → u32At p (j * 4) < u32At p ((j + 1) * 4)) ∧
      (0 < n → n * 4 ≤ u32At p 0)) ∧
    (∀ w, IndexedStructWalker.fromPayload p rev n = .ok w → w = ⟨p, n, rev⟩) ∧
    IndexedStructWalker.fromPayload p rev n ≠ .panic := by
  unfold IndexedStructWalker.fromPayload
  simp only
  by_cases hl : p.length < n * 4
  · rw [if_pos hl]
    refine ⟨⟨nofun, fun h => by omega⟩, nofun, by simp⟩
  · rw [if_neg hl, sliceR_ok (by omega) (by omega)]
    simp only [Res.ok_bind]
    have hb : ∀ j < n, j * 4 + 4 ≤ (slice p 0 (n * 4)).length := by
      intro j hj; rw [slice_length (by omega) (by omega)]; omega
    obtain ⟨hv, hnp⟩ := validateStructPrologue_iff (L := p.length % 2 ^ 32) hb
    have hv' : validateStructPrologue (slice p 0 (n * 4)) n 4 (p.length % 2 ^ 32) = .ok () ↔
        (∀ j < n, u32At p (j * 4) ≤ p.length % 2 ^ 32) ∧
        (∀ j, j + 1 < n → u32At p (j * 4) < u32At p ((j + 1) * 4)) := by
      rw [hv]
      constructor
      · rintro ⟨a, b⟩
        refine ⟨fun j hj => ?_, fun j hj => ?_⟩
        · rw [← u32At_slice_zero (m := n * 4) (by omega)]; exact a j hj
        · have := b j hj
          rwa [u32At_slice_zero (by omega), u32At_slice_zero (by omega)] at this
      · rintro ⟨a, b⟩
        refine ⟨fun j hj => ?_, fun j hj => ?_⟩
        · rw [u32At_slice_zero (by omega)]; exact a j hj
        · rw [u32At_slice_zero (by omega), u32At_slice_zero (by omega)]; exact b j hj
    cases hx : validateStructPrologue (slice p 0 (n * 4)) n 4 (p.length % 2 ^ 32) with
    | panic => exact absurd hx hnp
    | err e =>
      simp only [Res.err_bind]
      refine ⟨⟨nofun, fun h => ?_⟩, nofun, by simp⟩
      have := hv'.2 ⟨h.2.1, h.2.2.1⟩
      rw [hx] at this; cases this
    | ok u =>
      obtain ⟨a, b⟩ := hv'.1 hx
      simp only [Res.ok_bind]
      by_cases hn : 0 < n
      · rw [if_pos hn, decodeU32At_ok (by omega)]
        simp only [Res.ok_bind]
        by_cases hf : u32At p 0 < n * 4
        · rw [if_pos hf]
          refine ⟨⟨nofun, fun h => ?_⟩, nofun, by simp⟩
          have := h.2.2.2 hn; omega
        · rw [if_neg hf]
          refine ⟨⟨fun _ => ⟨by omega, a, b, fun _ => by omega⟩, fun _ => rfl⟩, fun w h => ?_,
            by simp⟩
          injection h with h; exact h.symm
      · rw [if_neg hn]
        refine ⟨⟨fun _ => ⟨by omega, a, b, fun h => absurd h hn⟩, fun _ => rfl⟩, fun w h => ?_,
          by simp⟩
        injection h with h; exact h.symm

theorem structWalker_ok {p : Bytes} {rev n : Nat} {w : IndexedStructWalker}
    (h : IndexedStructWalker.fromPayload p rev n = .ok w) :
    w = ⟨p, n, rev⟩ ∧ n * 4 ≤ p.length ∧
      (∀ j < n, u32At p (j * 4) ≤ p.length % 2 ^ 32) ∧
      (∀ j, j + 1 < n → u32At p (j * 4) < u32At p ((j + 1) * 4)) ∧
      (0 < n → n * 4 ≤ u32At p 0) := by
  have e := structWalker_iff.2.1 w h
  subst e
  exact ⟨rfl, structWalker_iff.1.1 h⟩

/-! ### Struct payloads -/

theorem fieldOffsets_length (fs : List Bytes) : ∀ off, (fieldOffsets off fs).length = fs.length := by
  induction fs with
  | nil => intro; rfl
  | cons f fs ih => intro off; simp [fieldOffsets, ih]

theorem fieldOffsets_get (fs : List Bytes) : ∀ off i (hi : i < (fieldOffsets off fs).length),
    (fieldOffsets off fs)[i] = off + ((fs.take i).flatten).length := by
  induction fs with
  | nil => intro off i hi; simp [fieldOffsets] at hi
  | cons f fs ih =>
    intro off i hi
    cases i with
    | zero => simp [fieldOffsets]
    | succ i =>
      simp only [fieldOffsets, List.getElem_cons_succ]
      rw [ih]
      simp only [List.take_succ_cons, List.flatten_cons, List.length_append]
      omega

theorem indexedStructPayload_eq (fs : List Bytes) :
    indexedStructPayload fs = tbl (fieldOffsets (fs.length * 4) fs) ++ fs.flatten := rfl

theorem indexedStructPayload_length (fs : List Bytes) :
    (indexedStructPayload fs).length = fs.length * 4 + fs.flatten.length := by
  rw [indexedStructPayload_eq, List.length_append, tbl_length, fieldOffsets_length]

theorem take_flatten_length_le (fs : List Bytes) (i : Nat) :
    ((fs.take i).flatten).length ≤ fs.flatten.length := by
  conv => rhs; rw [← List.take_append_drop i fs, List.flatten_append, List.length_append]
  omega

theorem take_succ_flatten_length (fs : List Bytes) (i : Nat) (hi : i < fs.length) :
    ((fs.take (i + 1)).flatten).length = ((fs.take i).flatten).length + fs[i].length := by
  rw [List.take_succ_eq_append_getElem hi, List.flatten_append, List.length_append]
  simp

theorem indexedStruct_u32At (fs : List Bytes) (hlen : (indexedStructPayload fs).length < 2 ^ 32)
    (i : Nat) (hi : i < fs.length) :
    u32At (indexedStructPayload fs) (i * 4) = fs.length * 4 + ((fs.take i).flatten).length := by
  have hi' : i < (fieldOffsets (fs.length * 4) fs).length := by rw [fieldOffsets_length]; exact hi
  have e := fieldOffsets_get fs (fs.length * 4) i hi'
  rw [indexedStructPayload_length] at hlen
  have := take_flatten_length_le fs i
  rw [indexedStructPayload_eq, u32At_tbl _ _ i hi' (by omega), e]

/-- Piece `i` of a concatenation. -/
theorem slice_flatten_get (pre : Bytes) (fs : List Bytes) (i : Nat) (hi : i < fs.length) :
    slice (pre ++ fs.flatten) (pre.length + ((fs.take i).flatten).length)
      (pre.length + ((fs.take (i + 1)).flatten).length) = fs[i] := by
  have e : pre ++ fs.flatten =
      (pre ++ (fs.take i).flatten) ++ (fs[i] ++ (fs.drop (i + 1)).flatten) := by
    conv => lhs; rw [← List.take_append_drop i fs, List.drop_eq_getElem_cons hi]
    rw [List.flatten_append, List.flatten_cons, ← List.append_assoc]
  rw [e, take_succ_flatten_length fs i hi]
  exact slice_append_mid _ _ _ (by simp) (by omega)

theorem indexedStruct_fieldBytes (fs : List Bytes) (rev : Nat)
    (hlen : (indexedStructPayload fs).length < 2 ^ 32) (i : Nat) (hi : i < fs.length) :
    (⟨indexedStructPayload fs, fs.length, rev⟩ : IndexedStructWalker).fieldBytes i = .ok fs[i] := by
  have hl := indexedStructPayload_length fs
  have h1 := indexedStruct_u32At fs hlen i hi
  have h2 := take_flatten_length_le fs (i + 1)
  have h3 := take_succ_flatten_length fs i hi
  have hs := slice_flatten_get (tbl (fieldOffsets (fs.length * 4) fs)) fs i hi
  rw [← indexedStructPayload_eq, tbl_length, fieldOffsets_length] at hs
  rw [IndexedStructWalker.fieldBytes]
  simp only [IndexedStructWalker.offset, ge_iff_le]
  rw [if_neg (by omega), decodeU32At_ok (by omega), h1]
  simp only [Res.ok_bind]
  by_cases hn : i + 1 < fs.length
  · rw [if_pos hn, decodeU32At_ok (by omega), indexedStruct_u32At fs hlen (i + 1) hn]
    simp only [Res.ok_bind]
    rw [sliceR_ok (by omega) (by omega), hs]
  · rw [if_neg hn]
    have e : (indexedStructPayload fs).length =
        fs.length * 4 + ((fs.take (i + 1)).flatten).length := by
      rw [hl, List.take_of_length_le (by omega)]
    rw [e, sliceR_ok (by omega) (by omega), hs]

end Revision
