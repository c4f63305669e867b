import Verif.Proofs.MachineHost

/-! Helper lemmas: the walkers of indexed collections in builds with and without overflow checks. -/

namespace Revision

namespace Machine

section
variable {M : Machine}

theorem mapWalker_host (hM : M.bits = 64) (hc : M.checks = true) (p : Bytes) (v : Bool) :
    M.mapWalker p v = IndexedMapWalker.fromPayloadInner p v := by
  unfold mapWalker IndexedMapWalker.fromPayloadInner
  simp only [sliceVarint_host hM, checkedMul_host hM, add_host hM hc]
  cases p <;> rfl

theorem seqWalker_host (hM : M.bits = 64) (hc : M.checks = true) (p : Bytes) (v : Bool) :
    M.seqWalker p v = IndexedSeqWalker.fromPayloadInner p v := by
  unfold seqWalker IndexedSeqWalker.fromPayloadInner
  simp only [sliceVarint_host hM, checkedMul_host hM, add_host hM hc]
  cases p <;> rfl

theorem sliceVarint_ok {s : Bytes} {n k : Nat} (h : M.sliceVarint s = .ok (n, k)) : n < 2 ^ M.bits ∧ k ≤ s.length := by
  unfold sliceVarint at h
  obtain ⟨p, h1, h2⟩ := Res.bind_eq_ok.1 h
  obtain ⟨m, j⟩ := p
  obtain ⟨x, h2, h3⟩ := Res.bind_eq_ok.1 h2
  unfold tryUsize at h2
  split at h2
  · injection h2 with h2
    injection h3 with h3
    injection h3 with h4 h5
    subst h2 h4 h5
    exact ⟨‹_›, (Revision.sliceVarint_ok h1).2.2.2⟩
  · cases h2

theorem add_fits {a b : Nat} (h : a + b < 2 ^ M.bits) : M.add a b = .ok (a + b) := if_pos h

theorem add_panics {B a b : Nat} (h : ¬ a + b < 2 ^ B) : (⟨B, true⟩ : Machine).add a b = .panic := by
  unfold add; rw [if_neg h]; rfl

/-- Without checks a sum that overflows is smaller than either term. -/
theorem add_wraps {B a b : Nat} (h : ¬ a + b < 2 ^ B) (ha : a < 2 ^ B) (hb : b < 2 ^ B) :
    ∃ x, (⟨B, false⟩ : Machine).add a b = .ok x ∧ x < a ∧ x < b := by
  refine ⟨(a + b) % 2 ^ B, by unfold add; rw [if_neg h]; rfl, ?_⟩
  rw [Nat.mod_eq_sub_mod (by omega), Nat.mod_eq_of_lt (by omega)]
  omega

theorem sliceR_back {b : Bytes} {i j : Nat} (h : j < i) : sliceR b i j = .panic := if_neg (by omega)

/-- What the two builds make of a payload: the same, or one panics where the other says the payload is cut short. -/
def Near (x y : Res α) : Prop := x = y ∨ (x = .panic ∧ y = .err .overrun)

theorem near_bind {x : Res α} {f g : α → Res β} (h : ∀ a, x = .ok a → Near (f a) (g a)) : Near (x >>= f) (x >>= g) := by
  cases x with
  | ok a => exact h a rfl
  | err e => exact .inl rfl
  | panic => exact .inl rfl

theorem seqWalker_builds {B : Nat} (p : Bytes) (hp : p.length < 2 ^ B) (v : Bool) :
    (⟨B, false⟩ : Machine).seqWalker p v = (⟨B, true⟩ : Machine).seqWalker p v := by
  unfold seqWalker
  cases p with
  | nil => rfl
  | cons flags rest =>
    simp only
    have he : (⟨B, false⟩ : Machine).sliceVarint = (⟨B, true⟩ : Machine).sliceVarint := rfl
    rw [he]
    cases hv : (⟨B, true⟩ : Machine).sliceVarint rest with
    | err e => rfl
    | panic => rfl
    | ok q =>
      obtain ⟨n, k⟩ := q
      have hk := (sliceVarint_ok hv).2
      simp only [Res.ok_bind]
      split
      · rfl
      · have hm : ∀ c, (⟨B, c⟩ : Machine).checkedMul n 4 .deserialize = if n * 4 < 2 ^ B then .ok (n * 4) else .err .deserialize :=
          fun c => rfl
        rw [hm, hm]
        by_cases hlt : n * 4 < 2 ^ B
        · simp only [if_pos hlt, Res.ok_bind]
          by_cases ht : 1 + k + n * 4 < 2 ^ B
          · rw [add_fits (M := ⟨B, false⟩) ht, add_fits (M := ⟨B, true⟩) ht]
          · rw [List.length_cons] at hp
            obtain ⟨x, e, h1, h2⟩ := add_wraps ht (by omega) hlt
            rw [e, add_panics ht]
            simp only [Res.ok_bind, Res.panic_bind]
            rw [if_neg (by rw [List.length_cons]; omega), sliceR_back h1]
            rfl
        · simp only [if_neg hlt, Res.err_bind]

theorem mapWalker_near {B : Nat} (h32 : 32 ≤ B) (p : Bytes) (hp : p.length < 2 ^ (B - 1)) (v : Bool) :
    Near ((⟨B, true⟩ : Machine).mapWalker p v) ((⟨B, false⟩ : Machine).mapWalker p v) ∧
    (34 ≤ B → (⟨B, true⟩ : Machine).mapWalker p v = (⟨B, false⟩ : Machine).mapWalker p v) := by
  have e2 : 2 ^ B = 2 ^ (B - 1) * 2 := by rw [show B = B - 1 + 1 by omega, Nat.pow_add]; simp
  have e31 : 2 ^ 31 ≤ 2 ^ (B - 1) := Nat.pow_le_pow_right (by omega) (by omega)
  have e33 : 34 ≤ B → 2 ^ 33 ≤ 2 ^ (B - 1) := fun h => Nat.pow_le_pow_right (by omega) (by omega)
  unfold mapWalker
  cases p with
  | nil => exact ⟨.inl rfl, fun _ => rfl⟩
  | cons flags rest =>
    simp only
    have he : (⟨B, false⟩ : Machine).sliceVarint = (⟨B, true⟩ : Machine).sliceVarint := rfl
    rw [he]
    cases hv : (⟨B, true⟩ : Machine).sliceVarint rest with
    | err e => exact ⟨.inl rfl, fun _ => rfl⟩
    | panic => exact ⟨.inl rfl, fun _ => rfl⟩
    | ok q =>
      obtain ⟨n, k⟩ := q
      have hk := (sliceVarint_ok hv).2
      have hkp : 1 + k ≤ (flags :: rest).length := by rw [List.length_cons]; omega
      generalize flags :: rest = p at hp hkp
      simp only [Res.ok_bind]
      split
      · exact ⟨.inl rfl, fun _ => rfl⟩
      · have hm : ∀ c, (⟨B, c⟩ : Machine).checkedMul n 8 .deserialize = if n * 8 < 2 ^ B then .ok (n * 8) else .err .deserialize :=
          fun c => rfl
        rw [hm, hm]
        by_cases hlt : n * 8 < 2 ^ B
        · simp only [if_pos hlt, Res.ok_bind]
          by_cases ht : 1 + k + n * 8 < 2 ^ B
          · rw [add_fits (M := ⟨B, false⟩) ht, add_fits (M := ⟨B, true⟩) ht]
            simp only [Res.ok_bind]
            generalize 1 + k + n * 8 = tEnd at ht
            split
            · exact ⟨.inl rfl, fun _ => rfl⟩
            · rename_i htl
              cases sliceR p (1 + k) tEnd with
              | err e => exact ⟨.inl rfl, fun _ => rfl⟩
              | panic => exact ⟨.inl rfl, fun _ => rfl⟩
              | ok table =>
                simp only [Res.ok_bind]
                have hl : tEnd + 8 < 2 ^ B := by omega
                rw [add_fits (M := ⟨B, false⟩) hl, add_fits (M := ⟨B, true⟩) hl]
                simp only [Res.ok_bind]
                split
                · exact ⟨.inl rfl, fun _ => rfl⟩
                · rename_i hll
                  have small : ∀ {o x : Nat}, decodeU32At p o = .ok x → x < 2 ^ 32 := by
                    intro o x h
                    obtain ⟨b, h1, h2⟩ := Res.bind_eq_ok.1 h
                    injection h2 with h2
                    have := leVal_lt b
                    have hb : b.length ≤ 4 := by
                      unfold sliceR at h1
                      split at h1
                      · injection h1 with h1
                        rw [← h1]; unfold slice
                        rw [List.length_drop, List.length_take]; omega
                      · cases h1
                    rw [← h2]
                    exact Nat.lt_of_lt_of_le this (Nat.pow_le_pow_right (by omega) hb)
                  cases hk1 : decodeU32At p tEnd with
                  | err e => exact ⟨.inl rfl, fun _ => rfl⟩
                  | panic => exact ⟨.inl rfl, fun _ => rfl⟩
                  | ok kl =>
                    cases hv1 : decodeU32At p (tEnd + 4) with
                    | err e => exact ⟨.inl rfl, fun _ => rfl⟩
                    | panic => exact ⟨.inl rfl, fun _ => rfl⟩
                    | ok vl =>
                      simp only [Res.ok_bind]
                      have hks := small hk1
                      have hvs := small hv1
                      have hB32 : 2 ^ 32 ≤ 2 ^ B := Nat.pow_le_pow_right (by omega) h32
                      by_cases h1 : tEnd + 8 + kl < 2 ^ B
                      · rw [add_fits (M := ⟨B, false⟩) h1, add_fits (M := ⟨B, true⟩) h1]
                        simp only [Res.ok_bind]
                        by_cases h2 : tEnd + 8 + kl + vl < 2 ^ B
                        · rw [add_fits (M := ⟨B, false⟩) h2, add_fits (M := ⟨B, true⟩) h2]
                          exact ⟨.inl rfl, fun _ => rfl⟩
                        · obtain ⟨y, e, l1, l2⟩ := add_wraps h2 h1 (by omega)
                          rw [e, add_panics h2]
                          simp only [Res.ok_bind, Res.panic_bind]
                          refine ⟨?_, fun h => by have := e33 h; omega⟩
                          split
                          · exact .inr ⟨rfl, rfl⟩
                          · left
                            by_cases h3 : tEnd + 8 + kl ≤ p.length
                            · rw [show sliceR p (tEnd + 8) (tEnd + 8 + kl) = .ok _ from if_pos ⟨by omega, h3⟩]
                              simp only [Res.ok_bind]
                              rw [sliceR_back l1]; rfl
                            · rw [show sliceR p (tEnd + 8) (tEnd + 8 + kl) = .panic from if_neg (by omega)]; rfl
                      · obtain ⟨x, e, l1, l2⟩ := add_wraps h1 (by omega) (by omega)
                        rw [e, add_panics h1]
                        simp only [Res.ok_bind, Res.panic_bind]
                        refine ⟨?_, fun h => by have := e33 h; omega⟩
                        have : ∃ y, (⟨B, false⟩ : Machine).add x vl = .ok y := by
                          by_cases h2 : x + vl < 2 ^ B
                          · exact ⟨_, add_fits (M := ⟨B, false⟩) h2⟩
                          · obtain ⟨y, e, _⟩ := add_wraps h2 (by omega) (by omega)
                            exact ⟨y, e⟩
                        obtain ⟨y, e⟩ := this
                        rw [e]
                        simp only [Res.ok_bind]
                        split
                        · exact .inr ⟨rfl, rfl⟩
                        · left
                          rw [sliceR_back l1]; rfl
          · obtain ⟨x, e, h1, h2⟩ := add_wraps ht (by omega) hlt
            rw [e, add_panics ht]
            simp only [Res.ok_bind, Res.panic_bind]
            rw [if_neg (by omega), sliceR_back h1]
            exact ⟨.inl rfl, fun _ => rfl⟩
        · simp only [if_neg hlt, Res.err_bind]
          exact ⟨.inl rfl, fun _ => trivial⟩

end

end Machine

end Revision
