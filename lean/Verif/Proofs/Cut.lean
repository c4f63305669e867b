import Verif.Proofs.IndexedBuild

/-! Helper lemmas: walkers over the beginning of a serialised indexed collection. -/

namespace Revision

theorem sliceVarint_cut {n : Nat} (hn : n < 2 ^ 64) {p c : Bytes} (h : writeVarint n = p ++ c)
    (hc : c ≠ []) : sliceVarint p = .err .overrun := by
  have hc' := List.length_pos_iff.2 hc
  cases p with
  | nil => rfl
  | cons x p =>
    have hl := congrArg List.length h
    rw [List.cons_append, List.length_cons, List.length_append] at hl
    rcases writeVarint_cases n hn with ⟨h1, e⟩ | ⟨h1, e⟩ | ⟨h1, e⟩ | e <;> rw [e] at h hl
    · simp only [List.length_cons, List.length_nil] at hl; omega
    all_goals
      rw [List.cons_append] at h
      obtain ⟨rfl, -⟩ := List.cons.inj h
      simp only [List.length_cons, leBytes_length] at hl
      unfold sliceVarint
      simp only [List.length_cons]
      rw [if_neg (by decide)]
    · rw [if_pos trivial, if_pos (by omega)]
    · rw [if_neg (by decide), if_pos trivial, if_pos (by omega)]
    · rw [if_neg (by decide), if_neg (by decide), if_pos trivial, if_pos (by omega)]

/-- The two ways of cutting what follows the flags byte. -/
theorem cut_cases {A R p post : Bytes} (h : A ++ R = p ++ post) :
    (∃ c, A = p ++ c ∧ c ≠ []) ∨ ∃ r, p = A ++ r ∧ R = r ++ post := by
  rcases List.append_eq_append_iff.1 h with ⟨a, h1, h2⟩ | ⟨c, h1, h2⟩
  · exact .inr ⟨a, h1, h2⟩
  · by_cases hc : c = []
    · subst hc
      exact .inr ⟨[], by rw [h1, List.append_nil, List.append_nil], by rw [h2]; rfl⟩
    · exact .inl ⟨c, h1, hc⟩

theorem addU_run {a b : Nat} (h : a + b < 2 ^ 64) : addU a b = .ok (a + b) := by
  unfold addU; rw [if_pos h]

theorem checkedMul_run {a b : Nat} {e : Err} (h : a * b < 2 ^ 64) : checkedMul a b e = .ok (a * b) := by
  unfold checkedMul; rw [if_pos h]

theorem mapWalker_cut {n : Nat} {T K V p post : Bytes} (hn : n < 2 ^ 56) (hT : T.length = n * 8)
    (hK : K.length < 2 ^ 32) (hV : V.length < 2 ^ 32) (validate : Bool)
    (h : (1 :: (writeVarint n ++ (T ++ (leBytes 4 K.length ++ (leBytes 4 V.length ++ (K ++ V))))) :
      Bytes) = p ++ post) (hpost : post ≠ []) :
    IndexedMapWalker.fromPayloadInner p validate = .err .overrun := by
  have hp := List.length_pos_iff.2 hpost
  cases p with
  | nil => rfl
  | cons x p =>
    rw [List.cons_append] at h
    injection h with hx h
    subst hx
    rcases cut_cases h with ⟨c, hc, hne⟩ | ⟨r, rfl, hr⟩
    · unfold IndexedMapWalker.fromPayloadInner
      simp only
      rw [sliceVarint_cut (by omega) hc hne]; rfl
    · have hk9 := writeVarint_length n
      have hl := congrArg List.length hr
      simp only [List.length_append, leBytes_length] at hl
      unfold IndexedMapWalker.fromPayloadInner
      simp only
      rw [sliceVarint_write _ (by omega)]
      simp only [Res.ok_bind]
      rw [if_neg (by decide), checkedMul_run (by omega)]
      simp only [Res.ok_bind]
      rw [addU_run (by omega)]
      simp only [Res.ok_bind, List.length_cons, List.length_append]
      by_cases h1 : r.length < n * 8
      · rw [if_pos (by omega)]
      rw [if_neg (by omega), sliceR_ok (by omega) (by simp only [List.length_cons, List.length_append]; omega)]
      simp only [Res.ok_bind]
      rw [addU_run (by omega)]
      simp only [Res.ok_bind]
      by_cases h2 : r.length < n * 8 + 8
      · rw [if_pos (by omega)]
      rw [if_neg (by omega)]
      obtain ⟨r', rfl, hr'⟩ : ∃ r', r = T ++ (leBytes 4 K.length ++ (leBytes 4 V.length ++ r')) ∧
          K ++ V = r' ++ post := by
        have e : (T ++ (leBytes 4 K.length ++ leBytes 4 V.length)) ++ (K ++ V) = r ++ post := by
          rw [← hr]; simp only [List.append_assoc]
        rcases cut_cases e with ⟨c, hc, hne⟩ | ⟨r', hr', hr''⟩
        · have := congrArg List.length hc
          have := List.length_pos_iff.2 hne
          simp only [List.length_append, leBytes_length] at *
          omega
        · exact ⟨r', by rw [hr']; simp only [List.append_assoc], hr''⟩
      have d : ∀ (A B : Bytes) (m o : Nat), m < 2 ^ 32 → o = A.length →
          decodeU32At (A ++ (leBytes 4 m ++ B)) o = .ok m := by
        intro A B m o hm ho
        have := slice_append_mid A (leBytes 4 m) B ho (j := o + 4) (by rw [leBytes_length])
        unfold decodeU32At
        rw [sliceR_ok (by omega) (by simp only [List.length_append, leBytes_length]; omega), this]
        simp only [Res.ok_bind]
        rw [leVal_leBytes, Nat.mod_eq_of_lt (by omega)]; rfl
      have e1 : (1 :: (writeVarint n ++ (T ++ (leBytes 4 K.length ++ (leBytes 4 V.length ++ r')))) : Bytes) =
          (1 :: (writeVarint n ++ T)) ++ (leBytes 4 K.length ++ (leBytes 4 V.length ++ r')) := by
        simp only [List.cons_append, List.append_assoc]
      have e2 : (1 :: (writeVarint n ++ (T ++ (leBytes 4 K.length ++ (leBytes 4 V.length ++ r')))) : Bytes) =
          (1 :: (writeVarint n ++ (T ++ leBytes 4 K.length))) ++ (leBytes 4 V.length ++ r') := by
        simp only [List.cons_append, List.append_assoc]
      have hl' := congrArg List.length hr'
      simp only [List.length_append] at hl'
      rw [e1, d _ _ _ _ hK (by simp only [List.length_cons, List.length_append]; omega), ← e1, e2,
        d _ _ _ _ hV (by simp only [List.length_cons, List.length_append, leBytes_length]; omega), ← e2]
      simp only [Res.ok_bind]
      rw [addU_run (by omega)]
      simp only [Res.ok_bind]
      rw [addU_run (by omega)]
      simp only [Res.ok_bind, List.length_append, leBytes_length]
      rw [if_pos (by omega)]

/-! ### Offsets past the end -/

theorem validateLoop_cut (t : Bytes) (stride L : Nat) : ∀ (n i : Nat) (last : Option Nat),
    (∀ j < n, (i + j) * stride + 4 ≤ t.length) →
    (∀ j, j + 1 < n → u32At t ((i + j) * stride) < u32At t ((i + (j + 1)) * stride)) →
    (∀ prev, last = some prev → prev < u32At t (i * stride)) →
    (∃ j < n, L < u32At t ((i + j) * stride)) →
    ∃ o, L < o ∧ validateLoop t stride L n i last = .err (.offsetOutOfRange o L) := by
  intro n
  induction n with
  | zero => intro i last _ _ _ ⟨j, hj, _⟩; omega
  | succ n ih =>
    intro i last hb hinc hlast ⟨j, hj, hL⟩
    have h0 : i * stride + 4 ≤ t.length := by simpa using hb 0 (by omega)
    rw [validateLoop, decodeU32At_ok h0]
    simp only [Res.ok_bind]
    by_cases ho : u32At t (i * stride) > L
    · rw [if_pos ho]; exact ⟨_, ho, rfl⟩
    rw [if_neg ho]
    have hj0 : j ≠ 0 := by rintro rfl; exact ho hL
    have next := ih (i + 1) (some (u32At t (i * stride)))
      (fun k hk => by have := hb (k + 1) (by omega); rwa [show i + (k + 1) = i + 1 + k by omega] at this)
      (fun k hk => by
        have := hinc (k + 1) (by omega)
        rwa [show i + (k + 1) = i + 1 + k by omega, show i + (k + 1 + 1) = i + 1 + (k + 1) by omega] at this)
      (fun prev hp => by
        cases hp
        have := hinc 0 (by omega)
        simpa using this)
      ⟨j - 1, by omega, by rwa [show i + 1 + (j - 1) = i + j by omega]⟩
    cases last with
    | none => exact next
    | some prev =>
      simp only
      have := hlast prev rfl
      rw [if_neg (by omega)]
      exact next

theorem validateStruct_cut {t : Bytes} {stride L n : Nat} (hb : ∀ j < n, j * stride + 4 ≤ t.length)
    (hinc : ∀ j, j + 1 < n → u32At t (j * stride) < u32At t ((j + 1) * stride))
    {j : Nat} (hj : j < n) (hL : L < u32At t (j * stride)) :
    ∃ o, L < o ∧ validateStructPrologue t n stride L = .err (.offsetOutOfRange o L) :=
  validateLoop_cut t stride L n 0 none (by simpa using hb) (by simpa using hinc) nofun
    ⟨j, hj, by simpa using hL⟩

theorem fieldOffsets_concat : ∀ (l : List Bytes) (x : Bytes) (off : Nat),
    fieldOffsets off (l ++ [x]) = fieldOffsets off l ++ [off + l.flatten.length]
  | [], x, off => by simp [fieldOffsets]
  | b :: l, x, off => by
    rw [List.cons_append, fieldOffsets, fieldOffsets, fieldOffsets_concat l x, List.cons_append,
      List.flatten_cons, List.length_append, Nat.add_assoc]

/-! ### Sequences -/

/-- A sequence cut inside its last element is the sequence with a shorter last element. -/
theorem seq_cut_last {init : List Bytes} {x : Bytes} {m : Nat} (h : m ≤ x.length) :
    (1 :: (writeVarint (init ++ [x]).length ++ (tbl (fieldOffsets 0 (init ++ [x])) ++
      (init ++ [x]).flatten)) : Bytes).take
        (1 + (writeVarint (init ++ [x]).length).length + (init.length + 1) * 4 + init.flatten.length + m) =
    1 :: (writeVarint (init ++ [x.take m]).length ++ (tbl (fieldOffsets 0 (init ++ [x.take m])) ++
      (init ++ [x.take m]).flatten)) := by
  have e : (init ++ [x.take m]).length = (init ++ [x]).length := by simp
  have ht : (tbl (fieldOffsets 0 (init ++ [x]))).length = (init.length + 1) * 4 := by
    rw [tbl_length, fieldOffsets_length]; simp
  have f : tbl (fieldOffsets 0 (init ++ [x.take m])) = tbl (fieldOffsets 0 (init ++ [x])) := by
    rw [fieldOffsets_concat, fieldOffsets_concat]
  have g : ∀ y : Bytes, (init ++ [y]).flatten = init.flatten ++ y := by intro y; simp
  rw [e, f, g, g]
  generalize writeVarint (init ++ [x]).length = V
  generalize tbl (fieldOffsets 0 (init ++ [x])) = T at ht
  have : 1 + V.length + (init.length + 1) * 4 + init.flatten.length + m =
      ((1 :: (V ++ (T ++ init.flatten)) : Bytes) ++ x.take m).length := by
    simp only [List.length_cons, List.length_append, List.length_take, Nat.min_eq_left h]; omega
  have e1 : (1 :: (V ++ (T ++ (init.flatten ++ x))) : Bytes) =
      ((1 :: (V ++ (T ++ init.flatten)) : Bytes) ++ x.take m) ++ x.drop m := by
    rw [List.append_assoc, List.take_append_drop]; simp only [List.cons_append, List.append_assoc]
  rw [e1, this, List.take_left]
  simp only [List.cons_append, List.append_assoc]

theorem seqWalker_cut_header {bs : List Bytes} (hn : bs.length < 2 ^ 56) {p post : Bytes}
    (h : (1 :: (writeVarint bs.length ++ (tbl (fieldOffsets 0 bs) ++ bs.flatten)) : Bytes) = p ++ post)
    (hp : p.length < 1 + (writeVarint bs.length).length + bs.length * 4) (validate : Bool) :
    IndexedSeqWalker.fromPayloadInner p validate = .err .overrun := by
  cases p with
  | nil => rfl
  | cons x p =>
    rw [List.cons_append] at h
    injection h with hx h
    subst hx
    rcases cut_cases h with ⟨c, hc, hne⟩ | ⟨r, rfl, hr⟩
    · unfold IndexedSeqWalker.fromPayloadInner
      simp only
      rw [sliceVarint_cut (by omega) hc hne]; rfl
    · have hk9 := writeVarint_length bs.length
      simp only [List.length_cons, List.length_append] at hp
      unfold IndexedSeqWalker.fromPayloadInner
      simp only
      rw [sliceVarint_write _ (by omega)]
      simp only [Res.ok_bind]
      rw [if_neg (by decide), checkedMul_run (by omega)]
      simp only [Res.ok_bind]
      rw [addU_run (by omega)]
      simp only [Res.ok_bind, List.length_cons, List.length_append]
      rw [if_pos (by omega)]

theorem u32At_fieldOffsets {bs : List Bytes} (hs : bs.flatten.length < 2 ^ 32) {i : Nat}
    (hi : i < bs.length) : u32At (tbl (fieldOffsets 0 bs)) (i * 4) = ((bs.take i).flatten).length := by
  have i1 : i < (fieldOffsets 0 bs).length := by rw [fieldOffsets_length]; exact hi
  have g := fieldOffsets_get bs 0 i i1
  have l := take_flatten_length_le bs i
  have := u32At_tbl (fieldOffsets 0 bs) [] i i1 (by rw [g]; omega)
  rw [List.append_nil, g, Nat.zero_add] at this
  exact this

theorem seqWalker_cut_body {bs : List Bytes} (hn : bs.length < 2 ^ 56) (hs : bs.flatten.length < 2 ^ 32)
    (hne : ∀ i (_ : i + 1 < bs.length), bs[i] ≠ []) {m : Nat} (hm : m < bs.dropLast.flatten.length) :
    ∃ o, m < o ∧ IndexedSeqWalker.fromPayload
      (1 :: (writeVarint bs.length ++ (tbl (fieldOffsets 0 bs) ++ bs.flatten.take m))) =
        .err (.offsetOutOfRange o m) := by
  have hdl : bs.dropLast = bs.take (bs.length - 1) := List.dropLast_eq_take
  rw [hdl] at hm
  have hle := take_flatten_length_le bs (bs.length - 1)
  have h1 : 0 < bs.length := by
    cases bs with
    | nil => simp at hm
    | cons => simp
  have hk9 := writeVarint_length bs.length
  have hT : (tbl (fieldOffsets 0 bs)).length = bs.length * 4 := by rw [tbl_length, fieldOffsets_length]
  have hml : (bs.flatten.take m).length = m := by rw [List.length_take]; omega
  obtain ⟨o, ho, hv⟩ := validateStruct_cut (t := tbl (fieldOffsets 0 bs)) (stride := 4) (L := m)
    (n := bs.length) (fun j hj => by omega)
    (fun j hj => by
      rw [u32At_fieldOffsets hs (by omega), u32At_fieldOffsets hs hj, take_succ_flatten_length _ _ (by omega)]
      have := List.length_pos_iff.2 (hne j hj)
      omega)
    (j := bs.length - 1) (by omega) (by rw [u32At_fieldOffsets hs (by omega)]; exact hm)
  refine ⟨o, ho, ?_⟩
  unfold IndexedSeqWalker.fromPayload IndexedSeqWalker.fromPayloadInner
  simp only
  rw [sliceVarint_write _ (by omega)]
  simp only [Res.ok_bind]
  rw [if_neg (by decide), checkedMul_run (by omega)]
  simp only [Res.ok_bind]
  rw [addU_run (by omega)]
  simp only [Res.ok_bind, List.length_cons, List.length_append]
  rw [if_neg (by omega), sliceR_ok (by omega) (by simp only [List.length_cons, List.length_append]; omega)]
  have s1 := slice_append_mid (1 :: writeVarint bs.length) (tbl (fieldOffsets 0 bs)) (bs.flatten.take m)
    (i := 1 + (writeVarint bs.length).length) (j := 1 + (writeVarint bs.length).length + bs.length * 4)
    (by simp only [List.length_cons]; omega) (by omega)
  rw [List.cons_append] at s1
  rw [s1]
  simp only [Res.ok_bind, List.length_drop, List.length_cons, List.length_append]
  rw [if_pos trivial]
  unfold validateSeqPrologue
  rw [show ((writeVarint bs.length).length + ((tbl (fieldOffsets 0 bs)).length + (bs.flatten.take m).length) + 1 -
    (1 + (writeVarint bs.length).length + bs.length * 4)) % 2 ^ 32 = m by
      rw [Nat.mod_eq_of_lt (by omega)]; omega, hv]
  rfl

/-! ### Structs -/

theorem struct_cut_last {init : List Bytes} {x : Bytes} {m : Nat} (h : m ≤ x.length) :
    (indexedStructPayload (init ++ [x])).take ((init.length + 1) * 4 + init.flatten.length + m) =
    indexedStructPayload (init ++ [x.take m]) := by
  have ht : ∀ y, (tbl (fieldOffsets ((init ++ [y]).length * 4) (init ++ [y]))).length = (init.length + 1) * 4 := by
    intro y; rw [tbl_length, fieldOffsets_length]; simp
  have f : tbl (fieldOffsets ((init ++ [x.take m]).length * 4) (init ++ [x.take m])) =
      tbl (fieldOffsets ((init ++ [x]).length * 4) (init ++ [x])) := by
    rw [fieldOffsets_concat, fieldOffsets_concat]; simp
  have g : ∀ y : Bytes, (init ++ [y]).flatten = init.flatten ++ y := by intro y; simp
  rw [indexedStructPayload_eq, indexedStructPayload_eq, f, g, g]
  have ht := ht x
  generalize tbl (fieldOffsets ((init ++ [x]).length * 4) (init ++ [x])) = T at ht
  have : (init.length + 1) * 4 + init.flatten.length + m = (T ++ (init.flatten ++ x.take m)).length := by
    simp only [List.length_append, List.length_take, Nat.min_eq_left h]; omega
  have e1 : T ++ (init.flatten ++ x) = (T ++ (init.flatten ++ x.take m)) ++ x.drop m := by
    simp only [List.append_assoc, List.take_append_drop]
  rw [e1, this, List.take_left]

theorem structWalker_cut_body {fs : List Bytes} (rev : Nat) (hs : (indexedStructPayload fs).length < 2 ^ 32)
    (hne : ∀ f ∈ fs.dropLast, f ≠ []) {n : Nat} (h1 : fs.length * 4 ≤ n)
    (h2 : n < fs.length * 4 + fs.dropLast.flatten.length) :
    ∃ o, n < o ∧ IndexedStructWalker.fromPayload ((indexedStructPayload fs).take n) rev fs.length =
      .err (.offsetOutOfRange o n) := by
  have hdl : fs.dropLast = fs.take (fs.length - 1) := List.dropLast_eq_take
  have hl := indexedStructPayload_length fs
  have hle := take_flatten_length_le fs (fs.length - 1)
  rw [hdl] at h2
  have h0 : 0 < fs.length := by
    cases fs with
    | nil => simp at h2
    | cons => simp
  have hnl : ((indexedStructPayload fs).take n).length = n := by rw [List.length_take]; omega
  have hsl : slice ((indexedStructPayload fs).take n) 0 (fs.length * 4) =
      tbl (fieldOffsets (fs.length * 4) fs) := by
    unfold slice
    rw [List.take_take, Nat.min_eq_left h1, List.drop_zero, indexedStructPayload_eq,
      List.take_append_of_le_length (by rw [tbl_length, fieldOffsets_length]; omega),
      List.take_of_length_le (by rw [tbl_length, fieldOffsets_length]; omega)]
  have hT : (tbl (fieldOffsets (fs.length * 4) fs)).length = fs.length * 4 := by
    rw [tbl_length, fieldOffsets_length]
  have hu : ∀ i, i < fs.length → u32At (tbl (fieldOffsets (fs.length * 4) fs)) (i * 4) =
      fs.length * 4 + ((fs.take i).flatten).length := by
    intro i hi
    have i1 : i < (fieldOffsets (fs.length * 4) fs).length := by rw [fieldOffsets_length]; exact hi
    have g := fieldOffsets_get fs (fs.length * 4) i i1
    have l := take_flatten_length_le fs i
    have := u32At_tbl (fieldOffsets (fs.length * 4) fs) [] i i1 (by rw [g]; omega)
    rwa [List.append_nil, g] at this
  obtain ⟨o, ho, hv⟩ := validateStruct_cut (t := tbl (fieldOffsets (fs.length * 4) fs)) (stride := 4) (L := n)
    (n := fs.length) (fun j hj => by omega)
    (fun j hj => by
      rw [hu j (by omega), hu (j + 1) hj, take_succ_flatten_length _ _ (by omega)]
      have := List.length_pos_iff.2 (hne fs[j] (by
        rw [hdl, List.mem_take_iff_getElem]; exact ⟨j, by omega, rfl⟩))
      omega)
    (j := fs.length - 1) (by omega) (by rw [hu _ (by omega)]; exact h2)
  refine ⟨o, ho, ?_⟩
  unfold IndexedStructWalker.fromPayload
  simp only
  rw [hnl, if_neg (by omega), sliceR_ok (by omega) (by omega), hsl]
  simp only [Res.ok_bind]
  rw [Nat.mod_eq_of_lt (by omega), hv]
  rfl

end Revision
