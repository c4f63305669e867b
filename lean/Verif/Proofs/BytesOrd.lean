import Verif.Model.BytesOrd

/-! Helper lemmas: `cmpBytes` is a linear order. -/

namespace Revision

theorem cmpBytes_swap (a b : Bytes) : cmpBytes a b = (cmpBytes b a).swap := by
  induction a generalizing b with
  | nil => cases b <;> rfl
  | cons x a ih =>
    cases b with
    | nil => rfl
    | cons y b =>
      simp only [cmpBytes]
      by_cases h1 : x < y
      · have h2 : ¬ y < x := by
          rw [UInt8.lt_iff_toNat_lt] at h1 ⊢; omega
        simp [h1, h2]
      · by_cases h2 : y < x
        · simp [h1, h2]
        · simp [h1, h2, ih]

@[simp] theorem cmpBytes_self (a : Bytes) : cmpBytes a a = .eq := by
  induction a with
  | nil => rfl
  | cons x a ih => simp [cmpBytes, ih]

@[simp] theorem cmpBytes_eq {a b : Bytes} : cmpBytes a b = .eq ↔ a = b := by
  induction a generalizing b with
  | nil => cases b <;> simp [cmpBytes]
  | cons x a ih =>
    cases b with
    | nil => simp [cmpBytes]
    | cons y b =>
      simp only [cmpBytes]
      by_cases h1 : x < y
      · have : x ≠ y := by
          intro h; subst h; exact absurd h1 (by simp)
        simp [h1, this]
      · by_cases h2 : y < x
        · have : x ≠ y := by
            intro h; subst h; exact absurd h2 (by simp)
          simp [h1, h2, this]
        · have : x = y := by
            apply UInt8.toNat_inj.1
            rw [UInt8.lt_iff_toNat_lt] at h1 h2
            omega
          simp [ih, this]

theorem cmpBytes_lt_trans {a b c : Bytes} (h1 : cmpBytes a b = .lt) (h2 : cmpBytes b c = .lt) :
    cmpBytes a c = .lt := by
  induction a generalizing b c with
  | nil =>
    cases b with
    | nil => simp [cmpBytes] at h1
    | cons y b => cases c with
      | nil => simp [cmpBytes] at h2
      | cons z c => rfl
  | cons x a ih =>
    cases b with
    | nil => simp [cmpBytes] at h1
    | cons y b => cases c with
      | nil => simp [cmpBytes] at h2
      | cons z c =>
        simp only [cmpBytes, UInt8.lt_iff_toNat_lt] at h1 h2 ⊢
        split at h1
        · split at h2
          · rw [if_pos (by omega)]
          · split at h2
            · simp at h2
            · rw [if_pos (by omega)]
        · split at h1
          · simp at h1
          · split at h2
            · rw [if_pos (by omega)]
            · split at h2
              · simp at h2
              · rw [if_neg (by omega), if_neg (by omega)]
                exact ih h1 h2

theorem cmpBytes_gt {a b : Bytes} : cmpBytes a b = .gt ↔ cmpBytes b a = .lt := by
  rw [cmpBytes_swap a b]; cases cmpBytes b a <;> simp

theorem cmpBytes_append {a b c d : Bytes} (h : a.length = b.length) :
    cmpBytes (a ++ c) (b ++ d) = (cmpBytes a b).then (cmpBytes c d) := by
  induction a generalizing b with
  | nil => cases b <;> simp_all [cmpBytes]
  | cons x a ih =>
    cases b with
    | nil => simp at h
    | cons y b =>
      simp only [List.cons_append, cmpBytes]
      split
      · rfl
      · split
        · rfl
        · exact ih (by simpa using h)

instance : Std.TransCmp cmpBytes where
  eq_swap := cmpBytes_swap _ _
  isLE_trans := by
    intro a b c h1 h2
    cases hab : cmpBytes a b with
    | eq => rw [cmpBytes_eq] at hab; subst hab; exact h2
    | gt => rw [hab] at h1; simp at h1
    | lt =>
      cases hbc : cmpBytes b c with
      | eq => rw [cmpBytes_eq] at hbc; subst hbc; simp [hab]
      | gt => rw [hbc] at h2; simp at h2
      | lt => simp [cmpBytes_lt_trans hab hbc]

end Revision
