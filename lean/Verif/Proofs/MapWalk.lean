import Verif.Proofs.Offsets

/-! Helper lemmas: the indexed-map walker. -/

namespace Revision

/-! ### Lengths -/

theorem sliceVarint_ok {s : Bytes} {n k : Nat} (h : sliceVarint s = .ok (n, k)) :
    n < 2 ^ 64 ∧ 1 ≤ k ∧ k ≤ 9 ∧ k ≤ s.length := by
  unfold sliceVarint at h
  cases s with
  | nil => cases h
  | cons tag s =>
    simp only at h
    split at h
    · simp only [Res.ok.injEq, Prod.mk.injEq] at h
      obtain ⟨rfl, rfl⟩ := h
      have := tag.toNat_lt
      simp; omega
    · split at h
      · split at h
        · cases h
        · rename_i hl
          simp only [Res.ok.injEq, Prod.mk.injEq] at h
          obtain ⟨rfl, rfl⟩ := h
          have := leVal_lt (((tag :: s).take 3).drop 1)
          have e : (((tag :: s).take 3).drop 1).length = 2 := by simp at hl ⊢; omega
          rw [e] at this
          refine ⟨by omega, by omega, by omega, by omega⟩
      · split at h
        · split at h
          · cases h
          · rename_i hl
            simp only [Res.ok.injEq, Prod.mk.injEq] at h
            obtain ⟨rfl, rfl⟩ := h
            have := leVal_lt (((tag :: s).take 5).drop 1)
            have e : (((tag :: s).take 5).drop 1).length = 4 := by simp at hl ⊢; omega
            rw [e] at this
            refine ⟨by omega, by omega, by omega, by omega⟩
        · split at h
          · split at h
            · cases h
            · rename_i hl
              simp only [Res.ok.injEq, Prod.mk.injEq] at h
              obtain ⟨rfl, rfl⟩ := h
              have := leVal_lt (((tag :: s).take 9).drop 1)
              have e : (((tag :: s).take 9).drop 1).length = 8 := by simp at hl ⊢; omega
              rw [e] at this
              refine ⟨by omega, by omega, by omega, by omega⟩
          · cases h

theorem sliceVarint_noPanic (s : Bytes) : sliceVarint s ≠ .panic := by
  unfold sliceVarint
  repeat' split
  all_goals simp

/-! ### Prologues -/

namespace MapPrologue

variable (p : MapPrologue) (n : Nat)

/-- Where key `i` starts, or the end of the key region. -/
def K (i : Nat) : Nat := if i < n then u32At p.table (i * 8) else p.keys.length

/-- Where value `i` starts, or the end of the value region. -/
def V (i : Nat) : Nat := if i < n then u32At p.table (i * 8 + 4) else p.vals.length

/-- Key `i`. -/
def key (i : Nat) : Bytes := slice p.keys (p.K n i) (p.K n (i + 1))

/-- Value `i`. -/
def val (i : Nat) : Bytes := slice p.vals (p.V n i) (p.V n (i + 1))

variable {p} {n}

theorem keyOff_eq (hT : p.table.length = n * 8) {i : Nat} (hi : i < n) :
    p.keyOff i = .ok (p.K n i) := by
  unfold keyOff K; rw [decodeU32At_ok (by omega), if_pos hi]

theorem valOff_eq (hT : p.table.length = n * 8) {i : Nat} (hi : i < n) :
    p.valOff i = .ok (p.V n i) := by
  unfold valOff V; rw [decodeU32At_ok (by omega), if_pos hi]

theorem keyEnd_eq (hT : p.table.length = n * 8) (i : Nat) :
    (if i + 1 < n then p.keyOff (i + 1) else .ok p.keys.length) = .ok (p.K n (i + 1)) := by
  split
  · exact keyOff_eq hT (by assumption)
  · unfold K; rw [if_neg (by assumption)]

theorem valEnd_eq (hT : p.table.length = n * 8) (i : Nat) :
    (if i + 1 < n then p.valOff (i + 1) else .ok p.vals.length) = .ok (p.V n (i + 1)) := by
  split
  · exact valOff_eq hT (by assumption)
  · unfold V; rw [if_neg (by assumption)]

theorem entryRanges_eq (hT : p.table.length = n * 8) (i : Nat) :
    p.entryRanges n i = .ok (if i < n then
      some ((p.K n i, p.K n (i + 1)), (p.V n i, p.V n (i + 1))) else none) := by
  unfold entryRanges
  simp only [ge_iff_le]
  by_cases hi : i < n
  · rw [if_neg (by omega), if_pos hi, keyOff_eq hT hi, valOff_eq hT hi]
    simp only [Res.ok_bind]
    have h1 := keyEnd_eq hT i
    have h2 := valEnd_eq hT i
    by_cases hn : i + 1 < n
    · rw [if_pos hn] at h1 h2 ⊢
      rw [h1]; simp only [Res.ok_bind]
      rw [if_pos hn, h2]; rfl
    · rw [if_neg hn] at h1 h2 ⊢
      rw [if_neg hn]
      injection h1 with h1; injection h2 with h2
      rw [h1, h2]; rfl
  · rw [if_pos (by omega), if_neg hi]

end MapPrologue

/-- What validation establishes about a prologue. -/
structure MapPrologue.Valid (p : MapPrologue) (n : Nat) : Prop where
  table : p.table.length = n * 8
  pos : 0 < n
  kLe : ∀ j < n, p.K n j ≤ p.keys.length
  kLt : ∀ j, j + 1 < n → p.K n j < p.K n (j + 1)
  vLe : ∀ j < n, p.V n j ≤ p.vals.length
  vLt : ∀ j, j + 1 < n → p.V n j < p.V n (j + 1)
  asc : ∀ j, j + 1 < n → cmpBytes (p.key n j) (p.key n (j + 1)) = .lt

namespace MapPrologue.Valid

variable {p : MapPrologue} {n : Nat} (h : p.Valid n)
include h

theorem kMono : ∀ j < n, p.K n j ≤ p.K n (j + 1) := by
  intro j hj
  by_cases e : j + 1 < n
  · exact Nat.le_of_lt (h.kLt j e)
  · have : p.K n (j + 1) = p.keys.length := by unfold MapPrologue.K; rw [if_neg e]
    rw [this]; exact h.kLe j hj

theorem vMono : ∀ j < n, p.V n j ≤ p.V n (j + 1) := by
  intro j hj
  by_cases e : j + 1 < n
  · exact Nat.le_of_lt (h.vLt j e)
  · have : p.V n (j + 1) = p.vals.length := by unfold MapPrologue.V; rw [if_neg e]
    rw [this]; exact h.vLe j hj

theorem kBound (j : Nat) : p.K n j ≤ p.keys.length := by
  by_cases e : j < n
  · exact h.kLe j e
  · unfold MapPrologue.K; rw [if_neg e]; exact Nat.le_refl _

theorem vBound (j : Nat) : p.V n j ≤ p.vals.length := by
  by_cases e : j < n
  · exact h.vLe j e
  · unfold MapPrologue.V; rw [if_neg e]; exact Nat.le_refl _

theorem getK {j : Nat} (hj : j < n) : getR p.keys (p.K n j) (p.K n (j + 1)) = some (p.key n j) :=
  getR_some (h.kMono j hj) (h.kBound _)

theorem getV {j : Nat} (hj : j < n) : getR p.vals (p.V n j) (p.V n (j + 1)) = some (p.val n j) :=
  getR_some (h.vMono j hj) (h.vBound _)

theorem keys_lt (i j : Nat) (hij : i < j) (hj : j < n) :
    cmpBytes (p.key n i) (p.key n j) = .lt := by
  induction j with
  | zero => omega
  | succ j ih =>
    by_cases e : i = j
    · subst e; exact h.asc i hj
    · exact cmpBytes_lt_trans (ih (by omega) (by omega)) (h.asc j hj)

end MapPrologue.Valid

theorem u32At_drop {b : Bytes} (k off : Nat) : u32At (slice b k b.length) off = u32At b (k + off) := by
  unfold u32At slice
  rw [List.take_length, List.take_drop, List.drop_drop]
  congr 2

theorem validateMapPrologue_iff {p : MapPrologue} {n : Nat} (hT : p.table.length = n * 8)
    (hn : n * 8 < 2 ^ 64) (h0 : 0 < n) :
    (validateMapPrologue p.table n p.keys.length p.vals.length = .ok () ↔
      (∀ j < n, p.K n j ≤ p.keys.length) ∧ (∀ j, j + 1 < n → p.K n j < p.K n (j + 1)) ∧
      (∀ j < n, p.V n j ≤ p.vals.length) ∧ (∀ j, j + 1 < n → p.V n j < p.V n (j + 1))) ∧
    validateMapPrologue p.table n p.keys.length p.vals.length ≠ .panic := by
  have e : p.table.length = min (n * 8) (2 ^ 64 - 1) := by omega
  unfold validateMapPrologue
  rw [if_neg (by simpa using e), sliceR_ok (by omega) (Nat.le_refl _)]
  simp only [Res.ok_bind]
  obtain ⟨a1, a2⟩ := validateStructPrologue_iff (t := p.table) (n := n) (stride := 8)
    (L := p.keys.length) (fun j hj => by omega)
  obtain ⟨b1, b2⟩ := validateStructPrologue_iff (t := slice p.table 4 p.table.length) (n := n)
    (stride := 8) (L := p.vals.length) (fun j hj => by
      rw [slice_length (by omega) (Nat.le_refl _)]; omega)
  have kk : ∀ j, j < n → u32At p.table (j * 8) = p.K n j := by
    intro j hj; unfold MapPrologue.K; rw [if_pos hj]
  have vv : ∀ j, j < n → u32At (slice p.table 4 p.table.length) (j * 8) = p.V n j := by
    intro j hj; unfold MapPrologue.V; rw [if_pos hj, u32At_drop, Nat.add_comm]
  have a1' : validateStructPrologue p.table n 8 p.keys.length = .ok () ↔
      (∀ j < n, p.K n j ≤ p.keys.length) ∧ (∀ j, j + 1 < n → p.K n j < p.K n (j + 1)) := by
    rw [a1]
    constructor
    · rintro ⟨x, y⟩
      exact ⟨fun j hj => by rw [← kk j hj]; exact x j hj,
        fun j hj => by rw [← kk j (by omega), ← kk (j + 1) hj]; exact y j hj⟩
    · rintro ⟨x, y⟩
      exact ⟨fun j hj => by rw [kk j hj]; exact x j hj,
        fun j hj => by rw [kk j (by omega), kk (j + 1) hj]; exact y j hj⟩
  have b1' : validateStructPrologue (slice p.table 4 p.table.length) n 8 p.vals.length = .ok () ↔
      (∀ j < n, p.V n j ≤ p.vals.length) ∧ (∀ j, j + 1 < n → p.V n j < p.V n (j + 1)) := by
    rw [b1]
    constructor
    · rintro ⟨x, y⟩
      exact ⟨fun j hj => by rw [← vv j hj]; exact x j hj,
        fun j hj => by rw [← vv j (by omega), ← vv (j + 1) hj]; exact y j hj⟩
    · rintro ⟨x, y⟩
      exact ⟨fun j hj => by rw [vv j hj]; exact x j hj,
        fun j hj => by rw [vv j (by omega), vv (j + 1) hj]; exact y j hj⟩
  cases hx : validateStructPrologue p.table n 8 p.keys.length with
  | panic => exact absurd hx a2
  | err er =>
    simp only [Res.err_bind]
    refine ⟨⟨nofun, fun h => ?_⟩, by simp⟩
    have := a1'.2 ⟨h.1, h.2.1⟩; rw [hx] at this; cases this
  | ok u =>
    simp only [Res.ok_bind]
    obtain ⟨x, y⟩ := a1'.1 hx
    refine ⟨?_, b2⟩
    rw [b1']
    exact ⟨fun h => ⟨x, y, h⟩, fun h => h.2.2⟩

theorem isLE_ne_true {o : Ordering} : o.isLE ≠ true ↔ o = .gt := by cases o <;> decide

theorem ascLoop_iff {p : MapPrologue} {n : Nat} (hT : p.table.length = n * 8)
    (hk : ∀ j < n, p.K n j ≤ p.K n (j + 1)) (hb : ∀ j, p.K n j ≤ p.keys.length) : ∀ m i,
    i + 1 + m = n →
    (ascLoop p.keys p.table n m (i + 1) (p.K n i) (p.K n (i + 1)) = .ok () ↔
      ∀ j, i ≤ j → j + 1 < n → cmpBytes (p.key n j) (p.key n (j + 1)) = .lt) ∧
    ascLoop p.keys p.table n m (i + 1) (p.K n i) (p.K n (i + 1)) ≠ .panic := by
  intro m
  induction m with
  | zero =>
    intro i hi
    exact ⟨⟨fun _ j h1 h2 => by omega, fun _ => rfl⟩, by simp [ascLoop]⟩
  | succ m ih =>
    intro i hi
    obtain ⟨ih1, ih2⟩ := ih (i + 1) (by omega)
    have step : ascLoop p.keys p.table n (m + 1) (i + 1) (p.K n i) (p.K n (i + 1)) =
        (if (cmpBytes (p.key n (i + 1)) (p.key n i)).isLE then .err .keysNotAscending
        else ascLoop p.keys p.table n m (i + 1 + 1) (p.K n (i + 1)) (p.K n (i + 1 + 1))) := by
      have s1 := sliceR_ok (b := p.keys) (hk i (by omega)) (hb (i + 1))
      have s2 := sliceR_ok (b := p.keys) (hk (i + 1) (by omega)) (hb (i + 1 + 1))
      have e := MapPrologue.keyEnd_eq hT (i + 1)
      rw [ascLoop]
      simp only [MapPrologue.keyOff] at e
      by_cases hn : i + 1 + 1 < n
      · rw [if_pos hn] at e ⊢
        rw [e]; simp only [Res.ok_bind]
        rw [s1]; simp only [Res.ok_bind]
        rw [s2]; rfl
      · rw [if_neg hn] at e ⊢
        injection e with e
        rw [e]
        rw [s1]; simp only [Res.ok_bind]
        rw [s2]; rfl
    rw [step]
    by_cases hc : (cmpBytes (p.key n (i + 1)) (p.key n i)).isLE = true
    · rw [if_pos hc]
      refine ⟨⟨nofun, fun h => ?_⟩, by simp⟩
      have := h i (Nat.le_refl _) (by omega)
      rw [cmpBytes_swap, this] at hc; cases hc
    · rw [if_neg hc]
      refine ⟨?_, ih2⟩
      rw [ih1]
      have hlt : cmpBytes (p.key n i) (p.key n (i + 1)) = .lt := cmpBytes_gt.1 (isLE_ne_true.1 hc)
      constructor
      · intro h j h1 h2
        by_cases e : i = j
        · subst e; exact hlt
        · exact h j (by omega) h2
      · intro h j h1 h2; exact h j (by omega) h2

theorem validateKeyRegionAscending_iff {p : MapPrologue} {n : Nat} (hT : p.table.length = n * 8)
    (hk : ∀ j < n, p.K n j ≤ p.K n (j + 1)) (hb : ∀ j, p.K n j ≤ p.keys.length) :
    (validateKeyRegionAscending p.keys p.table n = .ok () ↔
      ∀ j, j + 1 < n → cmpBytes (p.key n j) (p.key n (j + 1)) = .lt) ∧
    validateKeyRegionAscending p.keys p.table n ≠ .panic := by
  unfold validateKeyRegionAscending
  by_cases h2 : n < 2
  · rw [if_pos h2]
    exact ⟨⟨fun _ j hj => by omega, fun _ => rfl⟩, by simp⟩
  · rw [if_neg h2]
    have e0 := MapPrologue.keyOff_eq hT (i := 0) (by omega)
    have e1 := MapPrologue.keyOff_eq hT (i := 1) (by omega)
    simp only [MapPrologue.keyOff, Nat.zero_mul, Nat.one_mul] at e0 e1
    rw [e0, Res.ok_bind, e1, Res.ok_bind]
    have := ascLoop_iff hT hk hb (n - 1) 0 (by omega)
    refine ⟨?_, this.2⟩
    rw [this.1]
    exact ⟨fun h j hj => h j (by omega) hj, fun h j _ hj => h j hj⟩

/-! ### Construction -/

/-- How a walker with a prologue sits inside its payload. -/
structure IndexedMapWalker.Sits (payload : Bytes) (w : IndexedMapWalker) (p : MapPrologue) : Prop where
  pro : w.prologue = some p
  table : p.table.length = w.len * 8
  lt : w.len * 8 < 2 ^ 64
  kLt : p.keys.length < 2 ^ 32
  vLt : p.vals.length < 2 ^ 32
  parts : ∃ head post, payload = head ++ (p.table ++ (leBytes 4 p.keys.length ++
    (leBytes 4 p.vals.length ++ (p.keys ++ (p.vals ++ post)))))

theorem slice_of_drop {b rest : Bytes} {i j : Nat} (hij : i ≤ j) (h : j ≤ b.length) (e : b.drop j = rest) :
    b.drop i = slice b i j ++ rest := by
  unfold slice
  rw [← e]
  conv => lhs; rw [← List.take_append_drop j b]
  rw [List.drop_append_of_le_length (by simp; omega)]

theorem leBytes_u32At {b : Bytes} {off : Nat} (h : off + 4 ≤ b.length) :
    leBytes 4 (u32At b off) = slice b off (off + 4) := by
  have := leBytes_leVal (slice b off (off + 4))
  rw [slice_length (by omega) h] at this
  have e : off + 4 - off = 4 := by omega
  rw [e] at this; exact this

/-- The outcomes of construction. -/
inductive MapOutcome (payload : Bytes) (validate : Bool) : Res IndexedMapWalker → Prop
  | legacy (w : IndexedMapWalker) (h : w.prologue = none) (hb : w.body <:+ payload) :
      MapOutcome payload validate (.ok w)
  | indexed (w : IndexedMapWalker) (p : MapPrologue) (h : IndexedMapWalker.Sits payload w p)
      (hv : validate = true → p.Valid w.len) : MapOutcome payload validate (.ok w)
  | err (e : Err) : MapOutcome payload validate (.err e)
  | overflow (flags : UInt8) (rest : Bytes) (len k : Nat) (hp : payload = flags :: rest)
      (hf : flags &&& 1 ≠ 0) (hv : sliceVarint rest = .ok (len, k)) (hm : len * 8 < 2 ^ 64)
      (ho : 2 ^ 64 ≤ 1 + k + len * 8) : MapOutcome payload validate .panic
  | empty (flags : UInt8) (rest : Bytes) (k : Nat) (hp : payload = flags :: rest)
      (hf : flags &&& 1 ≠ 0) (hv : sliceVarint rest = .ok (0, k)) (hval : validate = true)
      (hlen : 1 + k + 8 ≤ payload.length) : MapOutcome payload validate .panic

theorem mapOutcome (payload : Bytes) (hlen : payload.length < 2 ^ 63) (validate : Bool) :
    MapOutcome payload validate (IndexedMapWalker.fromPayloadInner payload validate) := by
  cases hpay : payload with
  | nil => exact .err _
  | cons flags rest =>
    rw [← hpay]
    have hpl : payload.length = rest.length + 1 := by rw [hpay]; rfl
    have unf : IndexedMapWalker.fromPayloadInner payload validate =
        (do
          let (len, varintBytes) ← sliceVarint rest
          let cursor := 1 + varintBytes
          if flags &&& 1 = 0 then .ok ⟨payload.drop cursor, none, len⟩
          else do
            let tableBytes ← checkedMul len 8 .deserialize
            let tableEnd ← addU cursor tableBytes
            if payload.length < tableEnd then .err .overrun
            else do
              let table ← sliceR payload cursor tableEnd
              let lensEnd ← addU tableEnd 8
              if payload.length < lensEnd then .err .overrun
              else do
                let keysLen ← decodeU32At payload tableEnd
                let valsLen ← decodeU32At payload (tableEnd + 4)
                let keysEnd ← addU lensEnd keysLen
                let valsEnd ← addU keysEnd valsLen
                if payload.length < valsEnd then .err .overrun
                else do
                  let keys ← sliceR payload lensEnd keysEnd
                  let vals ← sliceR payload keysEnd valsEnd
                  if validate then do
                    validateMapPrologue table len keysLen valsLen
                    validateKeyRegionAscending keys table len
                    .ok ⟨payload.drop cursor, some ⟨table, keys, vals⟩, len⟩
                  else .ok ⟨payload.drop cursor, some ⟨table, keys, vals⟩, len⟩) := by
      subst hpay; rfl
    rw [unf]
    cases hv : sliceVarint rest with
    | err e => exact .err _
    | panic => exact absurd hv (sliceVarint_noPanic _)
    | ok x =>
      obtain ⟨len, k⟩ := x
      obtain ⟨hn, hk1, hk2, hk3⟩ := sliceVarint_ok hv
      simp only [Res.ok_bind]
      by_cases hf : flags &&& 1 = 0
      · rw [if_pos hf]; exact .legacy _ rfl (List.drop_suffix _ _)
      rw [if_neg hf]
      unfold checkedMul
      by_cases hm : len * 8 < 2 ^ 64
      case neg => rw [if_neg hm]; exact .err _
      rw [if_pos hm, Res.ok_bind]
      by_cases ho : 1 + k + len * 8 < 2 ^ 64
      case neg =>
        have : addU (1 + k) (len * 8) = .panic := by unfold addU; rw [if_neg ho]
        rw [this]
        exact .overflow flags rest len k hpay hf hv hm (by omega)
      have a1 : addU (1 + k) (len * 8) = .ok (1 + k + len * 8) := by unfold addU; rw [if_pos ho]
      rw [a1, Res.ok_bind]
      by_cases h1 : payload.length < 1 + k + len * 8
      · rw [if_pos h1]; exact .err _
      rw [if_neg h1, sliceR_ok (by omega) (by omega), Res.ok_bind]
      generalize hte : 1 + k + len * 8 = te at *
      have a2 : addU te 8 = .ok (te + 8) := by unfold addU; rw [if_pos (by omega)]
      rw [a2, Res.ok_bind]
      by_cases h2 : payload.length < te + 8
      · rw [if_pos h2]; exact .err _
      rw [if_neg h2, decodeU32At_ok (by omega), Res.ok_bind, decodeU32At_ok (by omega), Res.ok_bind]
      have hkl := u32At_lt (b := payload) (off := te) (by omega)
      have hvl := u32At_lt (b := payload) (off := te + 4) (by omega)
      generalize hkl' : u32At payload te = kl at *
      generalize hvl' : u32At payload (te + 4) = vl at *
      have a3 : addU (te + 8) kl = .ok (te + 8 + kl) := by unfold addU; rw [if_pos (by omega)]
      have a4 : addU (te + 8 + kl) vl = .ok (te + 8 + kl + vl) := by
        unfold addU; rw [if_pos (by omega)]
      rw [a3, Res.ok_bind, a4, Res.ok_bind]
      by_cases h3 : payload.length < te + 8 + kl + vl
      · rw [if_pos h3]; exact .err _
      rw [if_neg h3, sliceR_ok (by omega) (by omega), Res.ok_bind, sliceR_ok (by omega) (by omega),
        Res.ok_bind]
      generalize hp : (⟨slice payload (1 + k) te, slice payload (te + 8) (te + 8 + kl),
        slice payload (te + 8 + kl) (te + 8 + kl + vl)⟩ : MapPrologue) = p
      have hT : p.table.length = len * 8 := by
        rw [← hp]; show (slice payload (1 + k) te).length = _
        rw [slice_length (by omega) (by omega)]; omega
      have hK : p.keys.length = kl := by
        rw [← hp]; show (slice payload (te + 8) (te + 8 + kl)).length = _
        rw [slice_length (by omega) (by omega)]; omega
      have hV : p.vals.length = vl := by
        rw [← hp]; show (slice payload (te + 8 + kl) (te + 8 + kl + vl)).length = _
        rw [slice_length (by omega) (by omega)]; omega
      have sits : IndexedMapWalker.Sits payload ⟨payload.drop (1 + k), some p, len⟩ p := by
        refine ⟨rfl, hT, hm, by omega, by omega, payload.take (1 + k),
          payload.drop (te + 8 + kl + vl), ?_⟩
        rw [hK, hV, ← hkl', ← hvl', leBytes_u32At (by omega), leBytes_u32At (by omega), ← hp,
          hkl', hvl']
        simp only
        rw [← slice_of_drop (b := payload) (i := te + 8 + kl) (j := te + 8 + kl + vl) (by omega) (by omega) rfl,
          ← slice_of_drop (b := payload) (i := te + 8) (j := te + 8 + kl) (by omega) (by omega) rfl,
          ← slice_of_drop (b := payload) (i := te + 4) (j := te + 4 + 4) (by omega) (by omega) rfl,
          ← slice_of_drop (b := payload) (i := te) (j := te + 4) (by omega) (by omega) rfl,
          ← slice_of_drop (b := payload) (i := 1 + k) (j := te) (by omega) (by omega) rfl,
          List.take_append_drop]
      have e1 : slice payload (1 + k) te = p.table := by rw [← hp]
      have e2 : slice payload (te + 8) (te + 8 + kl) = p.keys := by rw [← hp]
      rw [e1, e2]
      cases validate with
      | false =>
        simp only [Bool.false_eq_true, if_false]
        exact .indexed _ p sits nofun
      | true =>
        simp only [if_true]
        by_cases h0 : 0 < len
        case neg =>
          have hl0 : len = 0 := by omega
          subst hl0
          have : validateMapPrologue p.table 0 kl vl = .panic := by
            unfold validateMapPrologue
            rw [if_neg (by simp [hT])]
            have : sliceR p.table 4 p.table.length = .panic := by
              unfold sliceR; rw [if_neg (by omega)]
            show (sliceR p.table 4 p.table.length >>= _) = _
            rw [this]; rfl
          rw [this]
          exact .empty flags rest k hpay hf hv rfl (by omega)
        obtain ⟨v1, v2⟩ := validateMapPrologue_iff hT hm h0
        rw [hK, hV] at v1 v2
        cases hx : validateMapPrologue p.table len kl vl with
        | panic => exact absurd hx v2
        | err e => exact .err _
        | ok u =>
          rw [Res.ok_bind]
          obtain ⟨c1, c2, c3, c4⟩ := v1.1 hx
          have kM : ∀ j < len, p.K len j ≤ p.K len (j + 1) := by
            intro j hj
            by_cases e : j + 1 < len
            · exact Nat.le_of_lt (c2 j e)
            · have : p.K len (j + 1) = p.keys.length := by unfold MapPrologue.K; rw [if_neg e]
              rw [this, hK]; exact c1 j hj
          have kB : ∀ j, p.K len j ≤ p.keys.length := by
            intro j
            by_cases e : j < len
            · rw [hK]; exact c1 j e
            · unfold MapPrologue.K; rw [if_neg e]; exact Nat.le_refl _
          obtain ⟨w1, w2⟩ := validateKeyRegionAscending_iff hT kM kB
          cases hy : validateKeyRegionAscending p.keys p.table len with
          | panic => exact absurd hy w2
          | err e => exact .err _
          | ok u =>
            rw [Res.ok_bind]
            exact .indexed _ p sits (fun _ => ⟨hT, h0, by rw [hK]; exact c1, c2, by rw [hV]; exact c3,
              c4, w1.1 hy⟩)

/-! ### Entries and search -/

open IndexedMapWalker

theorem entriesLoop_eq {p : MapPrologue} {n : Nat} (hT : p.table.length = n * 8) : ∀ m i,
    entriesLoop p n m i (p.K n i) (p.V n i) = .ok ((List.range' i m).map fun j =>
      ((getR p.keys (p.K n j) (p.K n (j + 1))).getD [],
        (getR p.vals (p.V n j) (p.V n (j + 1))).getD [])) := by
  intro m
  induction m with
  | zero => intro i; rfl
  | succ m ih =>
    intro i
    have h1 := MapPrologue.keyEnd_eq hT i
    have h2 := MapPrologue.valEnd_eq hT i
    rw [entriesLoop]
    by_cases hn : i + 1 < n
    · rw [if_pos hn] at h1 h2
      simp only [if_pos hn, h1, h2, Res.ok_bind, ih]
      rfl
    · rw [if_neg hn] at h1 h2
      injection h1 with h1; injection h2 with h2
      simp only [if_neg hn, h1, h2, Res.ok_bind, ih]
      rfl

theorem entries_eq {w : IndexedMapWalker} {p : MapPrologue} (hp : w.prologue = some p)
    (hT : p.table.length = w.len * 8) :
    w.entries = some (.ok ((List.range w.len).map fun j =>
      ((getR p.keys (p.K w.len j) (p.K w.len (j + 1))).getD [],
        (getR p.vals (p.V w.len j) (p.V w.len (j + 1))).getD []))) := by
  unfold entries
  rw [hp]
  simp only [Option.map_some, Option.some.injEq]
  by_cases h : w.len > 0
  · rw [if_pos h, MapPrologue.keyOff_eq hT h, Res.ok_bind, MapPrologue.valOff_eq hT h, Res.ok_bind,
      entriesLoop_eq hT, List.range_eq_range']
  · rw [if_neg h]
    have : w.len = 0 := by omega
    rw [this]; rfl

/-- The entries of a valid prologue. -/
def MapPrologue.es (p : MapPrologue) (n : Nat) : List (Bytes × Bytes) :=
  (List.range n).map fun j => (p.key n j, p.val n j)

theorem entries_valid {w : IndexedMapWalker} {p : MapPrologue} (hp : w.prologue = some p)
    (hv : p.Valid w.len) : w.entries = some (.ok (p.es w.len)) := by
  rw [entries_eq hp hv.table]
  congr 2
  apply List.map_congr_left
  intro j hj
  have hj := List.mem_range.1 hj
  rw [hv.getK hj, hv.getV hj]; rfl

theorem searchLoop_none {p : MapPrologue} {n : Nat} {pred : Bytes → Ordering} {lo hi : Nat}
    (h : ¬ lo < hi) : searchLoop p n pred lo hi = .ok none := by
  rw [searchLoop, dif_neg h]

/-- One step of the search over a valid prologue. -/
theorem searchLoop_step {p : MapPrologue} {n : Nat} (hv : p.Valid n) (pred : Bytes → Ordering)
    {lo hi : Nat} (h : lo < hi) (hn : hi ≤ n) :
    searchLoop p n pred lo hi =
      match pred (p.key n (lo + (hi - lo) / 2)) with
      | .eq => .ok (some (p.val n (lo + (hi - lo) / 2), (lo + (hi - lo) / 2) % 2 ^ 32))
      | .lt => searchLoop p n pred (lo + (hi - lo) / 2 + 1) hi
      | .gt => searchLoop p n pred lo (lo + (hi - lo) / 2) := by
  rw [searchLoop, dif_pos h]
  have hm : lo + (hi - lo) / 2 < n := by omega
  simp only [MapPrologue.entryRanges_eq hv.table, if_pos hm, hv.getK hm, hv.getV hm]
  cases pred (p.key n (lo + (hi - lo) / 2)) <;> rfl

/-- Search over a valid prologue. -/
theorem searchLoop_spec {p : MapPrologue} {n : Nat} (hv : p.Valid n) (pred : Bytes → Ordering)
    (hg : ∀ i j, i < j → j < n → pred (p.key n j) ≠ .gt → pred (p.key n i) = .lt) :
    ∀ d lo hi, hi - lo = d → hi ≤ n →
    (∀ i, i < lo → pred (p.key n i) = .lt) → (∀ i, hi ≤ i → i < n → pred (p.key n i) = .gt) →
    (∃ i, i < n ∧ pred (p.key n i) = .eq ∧
      searchLoop p n pred lo hi = .ok (some (p.val n i, i % 2 ^ 32))) ∨
    ((∀ i, i < n → pred (p.key n i) ≠ .eq) ∧ searchLoop p n pred lo hi = .ok none) := by
  intro d
  induction d using Nat.strongRecOn with
  | ind d ih =>
    intro lo hi hd hn hlo hhi
    by_cases h : lo < hi
    · have hm : lo + (hi - lo) / 2 < n := by omega
      rw [searchLoop_step hv pred h hn]
      generalize hmid : lo + (hi - lo) / 2 = mid at *
      cases hp : pred (p.key n mid) with
      | eq => exact .inl ⟨mid, hm, hp, rfl⟩
      | lt =>
        refine ih (hi - (mid + 1)) (by omega) _ _ rfl hn ?_ hhi
        intro i hi'
        by_cases e : i = mid
        · subst e; exact hp
        · exact hg i mid (by omega) hm (by simp [hp])
      | gt =>
        refine ih (mid - lo) (by omega) _ _ rfl (by omega) hlo ?_
        intro i hi' hin
        by_cases e : i = mid
        · subst e; exact hp
        · cases hx : pred (p.key n i) with
          | gt => rfl
          | lt => have := hg mid i (by omega) hin (by simp [hx]); rw [hp] at this; cases this
          | eq => have := hg mid i (by omega) hin (by simp [hx]); rw [hp] at this; cases this
    · rw [searchLoop_none h]
      refine .inr ⟨fun i hi' he => ?_, rfl⟩
      by_cases e : i < lo
      · rw [hlo i e] at he; cases he
      · rw [hhi i (by omega) hi'] at he; cases he

/-- Search over any prologue whose table has the right length: in bounds or an error. -/
theorem searchLoop_safe {p : MapPrologue} {n : Nat} (hT : p.table.length = n * 8)
    (pred : Bytes → Ordering) : ∀ d lo hi, hi - lo = d → hi ≤ n →
    (∃ i, i < n ∧ getR p.vals (p.V n i) (p.V n (i + 1)) = some (slice p.vals (p.V n i) (p.V n (i + 1))) ∧
      searchLoop p n pred lo hi = .ok (some (slice p.vals (p.V n i) (p.V n (i + 1)), i % 2 ^ 32))) ∨
    searchLoop p n pred lo hi = .ok none ∨
    ∃ o l, searchLoop p n pred lo hi = .err (.offsetOutOfRange o l) := by
  intro d
  induction d using Nat.strongRecOn with
  | ind d ih =>
    intro lo hi hd hn
    by_cases h : lo < hi
    · have hm : lo + (hi - lo) / 2 < n := by omega
      rw [searchLoop, dif_pos h]
      generalize hmid : lo + (hi - lo) / 2 = mid at *
      simp only [MapPrologue.entryRanges_eq hT, if_pos hm]
      cases hk : getR p.keys (p.K n mid) (p.K n (mid + 1)) with
      | none => exact .inr (.inr ⟨_, _, rfl⟩)
      | some key =>
        simp only
        cases hp : pred key with
        | eq =>
          cases hvv : getR p.vals (p.V n mid) (p.V n (mid + 1)) with
          | none => exact .inr (.inr ⟨_, _, rfl⟩)
          | some v =>
            have e := (getR_eq_some.1 hvv).2.2
            subst e
            exact .inl ⟨mid, hm, hvv, rfl⟩
        | lt => exact ih (hi - (mid + 1)) (by omega) _ _ rfl hn
        | gt => exact ih (mid - lo) (by omega) _ _ rfl (by omega)
    · rw [searchLoop_none h]; exact .inr (.inl rfl)

theorem MapPrologue.Valid.n_le {p : MapPrologue} {n : Nat} (hv : p.Valid n) (hk : p.keys.length < 2 ^ 32) :
    n ≤ 2 ^ 32 := by
  have h : ∀ j, j < n → j ≤ p.K n j := by
    intro j hj
    induction j with
    | zero => omega
    | succ j ih => have := hv.kLt j hj; have := ih (by omega); omega
  by_cases e : n = 0
  · omega
  · have h1 := h (n - 1) (by omega)
    have h2 := hv.kLe (n - 1) (by omega)
    omega

theorem probe_valid {p : MapPrologue} {n : Nat} (hv : p.Valid n) (hint : Option Nat)
    (pred : Bytes → Ordering) :
    probe p n hint pred = .ok (match hint with
      | none => none
      | some h => if h < n ∧ pred (p.key n h) = .eq then some (p.val n h, h) else none) := by
  cases hint with
  | none => rfl
  | some h =>
    unfold probe
    simp only [MapPrologue.entryRanges_eq hv.table, Res.ok_bind]
    by_cases hh : h < n
    · rw [if_pos hh]
      simp only [hv.getK hh, hv.getV hh]
      by_cases he : pred (p.key n h) = .eq
      · rw [if_pos he, if_pos ⟨hh, he⟩]; rfl
      · rw [if_neg he, if_neg (fun x => he x.2)]; rfl
    · rw [if_neg hh, if_neg (fun x => hh x.1)]; rfl

theorem probe_safe {p : MapPrologue} {n : Nat} (hT : p.table.length = n * 8) (hint : Option Nat)
    (pred : Bytes → Ordering) :
    probe p n hint pred = .ok none ∨ ∃ i v, hint = some i ∧ i < n ∧
      getR p.vals (p.V n i) (p.V n (i + 1)) = some v ∧ probe p n hint pred = .ok (some (v, i)) := by
  cases hint with
  | none => exact .inl rfl
  | some h =>
    unfold probe
    simp only [MapPrologue.entryRanges_eq hT, Res.ok_bind]
    by_cases hh : h < n
    · rw [if_pos hh]
      simp only
      cases hk : getR p.keys (p.K n h) (p.K n (h + 1)) with
      | none => exact .inl rfl
      | some key =>
        simp only
        split
        · cases hvv : getR p.vals (p.V n h) (p.V n (h + 1)) with
          | none => exact .inl rfl
          | some v => exact .inr ⟨h, v, rfl, hh, hvv, rfl⟩
        · exact .inl rfl
    · rw [if_neg hh]; exact .inl rfl

/-! ### Sequences -/

/-- Where element `i` starts, or the end of the body. -/
def seqOff (offsets body : Bytes) (n i : Nat) : Nat :=
  if i < n then u32At offsets (i * 4) else body.length

/-- The outcomes of construction. -/
inductive SeqOutcome (payload : Bytes) (validate : Bool) : Res IndexedSeqWalker → Prop
  | legacy (w : IndexedSeqWalker) (h : w.offsets = none) (hb : w.body <:+ payload) :
      SeqOutcome payload validate (.ok w)
  | indexed (w : IndexedSeqWalker) (offsets : Bytes) (h : w.offsets = some offsets)
      (hT : offsets.length = w.len * 4) (parts : ∃ head, payload = head ++ (offsets ++ w.body))
      (hv : validate = true → (∀ j < w.len, u32At offsets (j * 4) ≤ w.body.length % 2 ^ 32) ∧
        ∀ j, j + 1 < w.len → u32At offsets (j * 4) < u32At offsets ((j + 1) * 4)) :
      SeqOutcome payload validate (.ok w)
  | err (e : Err) : SeqOutcome payload validate (.err e)
  | overflow (flags : UInt8) (rest : Bytes) (len k : Nat) (hp : payload = flags :: rest)
      (hf : flags &&& 1 ≠ 0) (hv : sliceVarint rest = .ok (len, k)) (hm : len * 4 < 2 ^ 64)
      (ho : 2 ^ 64 ≤ 1 + k + len * 4) : SeqOutcome payload validate .panic

theorem seqOutcome (payload : Bytes) (validate : Bool) :
    SeqOutcome payload validate (IndexedSeqWalker.fromPayloadInner payload validate) := by
  cases hpay : payload with
  | nil => exact .err _
  | cons flags rest =>
    rw [← hpay]
    have hpl : payload.length = rest.length + 1 := by rw [hpay]; rfl
    have unf : IndexedSeqWalker.fromPayloadInner payload validate =
        (do
          let (len, varintLen) ← sliceVarint rest
          let cursor := 1 + varintLen
          if flags &&& 1 = 0 then .ok ⟨payload.drop cursor, none, len⟩
          else do
            let tableBytes ← checkedMul len 4 .deserialize
            let tableEnd ← addU cursor tableBytes
            if payload.length < tableEnd then .err .overrun
            else do
              let offsets ← sliceR payload cursor tableEnd
              let body := payload.drop tableEnd
              if validate then do
                validateSeqPrologue offsets len (body.length % 2 ^ 32)
                .ok ⟨body, some offsets, len⟩
              else .ok ⟨body, some offsets, len⟩) := by
      subst hpay; rfl
    rw [unf]
    cases hv : sliceVarint rest with
    | err e => exact .err _
    | panic => exact absurd hv (sliceVarint_noPanic _)
    | ok x =>
      obtain ⟨len, k⟩ := x
      obtain ⟨hn, hk1, hk2, hk3⟩ := sliceVarint_ok hv
      simp only [Res.ok_bind]
      by_cases hf : flags &&& 1 = 0
      · rw [if_pos hf]; exact .legacy _ rfl (List.drop_suffix _ _)
      rw [if_neg hf]
      unfold checkedMul
      by_cases hm : len * 4 < 2 ^ 64
      case neg => rw [if_neg hm]; exact .err _
      rw [if_pos hm, Res.ok_bind]
      by_cases ho : 1 + k + len * 4 < 2 ^ 64
      case neg =>
        have : addU (1 + k) (len * 4) = .panic := by unfold addU; rw [if_neg ho]
        rw [this]
        exact .overflow flags rest len k hpay hf hv hm (by omega)
      have a1 : addU (1 + k) (len * 4) = .ok (1 + k + len * 4) := by unfold addU; rw [if_pos ho]
      rw [a1, Res.ok_bind]
      by_cases h1 : payload.length < 1 + k + len * 4
      · rw [if_pos h1]; exact .err _
      rw [if_neg h1, sliceR_ok (by omega) (by omega), Res.ok_bind]
      have hT : (slice payload (1 + k) (1 + k + len * 4)).length = len * 4 := by
        rw [slice_length (by omega) (by omega)]; omega
      have parts : ∃ head, payload = head ++ (slice payload (1 + k) (1 + k + len * 4) ++
          payload.drop (1 + k + len * 4)) := by
        refine ⟨payload.take (1 + k), ?_⟩
        rw [← slice_of_drop (by omega) (by omega) rfl, List.take_append_drop]
      cases validate with
      | false =>
        simp only [Bool.false_eq_true, if_false]
        exact .indexed _ _ rfl hT parts nofun
      | true =>
        simp only [if_true]
        unfold validateSeqPrologue
        obtain ⟨v1, v2⟩ := validateStructPrologue_iff (t := slice payload (1 + k) (1 + k + len * 4))
          (n := len) (stride := 4) (L := (payload.drop (1 + k + len * 4)).length % 2 ^ 32)
          (fun j hj => by omega)
        cases hx : validateStructPrologue (slice payload (1 + k) (1 + k + len * 4)) len 4
          ((payload.drop (1 + k + len * 4)).length % 2 ^ 32) with
        | panic => exact absurd hx v2
        | err e => exact .err _
        | ok u => exact .indexed _ _ rfl hT parts (fun _ => v1.1 hx)

/-- Element access over a table of the right length. -/
theorem elementBytes_eq {w : IndexedSeqWalker} {offsets : Bytes} (h : w.offsets = some offsets)
    (hT : offsets.length = w.len * 4) {i : Nat} (hi : i < w.len) :
    w.elementBytes i = sliceR w.body (seqOff offsets w.body w.len i)
      (seqOff offsets w.body w.len (i + 1)) := by
  unfold IndexedSeqWalker.elementBytes
  rw [h]
  simp only [ge_iff_le]
  rw [if_neg (by omega), decodeU32At_ok (by omega), Res.ok_bind]
  unfold seqOff
  rw [if_pos hi]
  by_cases hn : i + 1 < w.len
  · rw [if_pos hn, decodeU32At_ok (by omega)]; simp only [if_pos hn]; rfl
  · rw [if_neg hn]; simp only [if_neg hn]; rfl

theorem elementBytes_out {w : IndexedSeqWalker} {i : Nat} (hi : w.len ≤ i) :
    w.elementBytes i = .err .deserialize := by
  unfold IndexedSeqWalker.elementBytes
  split
  · rfl
  · simp only [ge_iff_le]; rw [if_pos hi]

end Revision
