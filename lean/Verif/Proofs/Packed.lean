import Verif.Proofs.Ty

/-! Helper lemmas: bit-level view of packed booleans; element view of bulk vectors. -/

namespace Revision

theorem shift_table : ∀ n : Fin 256, ∀ k : Fin 8,
    decide ((UInt8.ofNat n.val >>> UInt8.ofNat k.val) &&& 1 = 1) = n.val.testBit k.val := by
  decide +kernel

theorem shift_testBit (b : UInt8) (k : Nat) (hk : k < 8) :
    decide ((b >>> UInt8.ofNat k) &&& 1 = 1) = b.toNat.testBit k := by
  have := shift_table ⟨b.toNat, b.toNat_lt⟩ ⟨k, hk⟩
  simpa using this

/-- Bit `i` of a packed buffer. -/
def bitAt (b : Bytes) (i : Nat) : Bool := (b.getD (i / 8) 0).toNat.testBit (i % 8)

theorem unpackByte_eq (bits : Nat) (h : bits ≤ 8) (b : UInt8) :
    unpackByte bits b = (List.range bits).map fun k => b.toNat.testBit k := by
  unfold unpackByte
  apply List.map_congr_left
  intro k hk
  exact shift_testBit b k (by simp at hk; omega)

theorem unpackBools_eq (b : Bytes) : ∀ n, divCeil8 n = b.length →
    unpackBools n b = (List.range n).map (bitAt b) := by
  induction b with
  | nil =>
    intro n h
    have : n = 0 := by simp [divCeil8] at h; omega
    subst this
    rfl
  | cons x b ih =>
    intro n h
    simp only [unpackBools]
    rw [unpackByte_eq _ (by omega), ih (n - 8) (by simp [divCeil8] at h ⊢; omega)]
    have hn : n = min 8 n + (n - 8) := by omega
    conv => rhs; rw [hn, List.range_add, List.map_append]
    congr 1
    · apply List.map_congr_left
      intro k hk
      simp at hk
      have h1 : k / 8 = 0 := by omega
      have h2 : k % 8 = k := by omega
      simp [bitAt, h1, h2]
    · rw [List.map_map]
      apply List.map_congr_left
      intro k hk
      simp at hk
      have h1 : (min 8 n + k) / 8 = k / 8 + 1 := by omega
      have h2 : (min 8 n + k) % 8 = k % 8 := by omega
      simp [bitAt, h1, h2]

theorem pack_bits_table : (allChunks 8).all (fun l => (List.range 8).all fun k =>
    (packByte l).toNat.testBit k == l.getD k false) = true := by decide +kernel

theorem packByte_testBit (l : List Bool) (h : l.length ≤ 8) (k : Nat) (hk : k < 8) :
    (packByte l).toNat.testBit k = l.getD k false := by
  have h1 := (List.all_eq_true.1 pack_bits_table) l (mem_allChunks 8 l h)
  have h2 := (List.all_eq_true.1 h1) k (by simpa using hk)
  simpa using h2

/-- Bit `i` of the packed form is element `i`, padding bits are zero. -/
theorem bitAt_packBools (n : Nat) : ∀ (l : List Bool) (i : Nat), divCeil8 l.length = n →
    bitAt (packBools n l) i = l.getD i false := by
  induction n with
  | zero =>
    intro l i h
    have : l.length = 0 := by simp [divCeil8] at h; omega
    have : l = [] := by simpa using this
    subst this
    simp [packBools, bitAt]
  | succ n ih =>
    intro l i h
    by_cases hi : i < 8
    · have h1 : i / 8 = 0 := by omega
      have h2 : i % 8 = i := by omega
      simp only [bitAt, packBools, h1, h2, List.getD_cons_zero]
      rw [packByte_testBit _ (by simp; omega) i hi]
      simp only [List.getD_eq_getElem?_getD, List.getElem?_take, hi, if_true]
    · have h1 : i / 8 = (i - 8) / 8 + 1 := by omega
      have h2 : i % 8 = (i - 8) % 8 := by omega
      simp only [bitAt, packBools, h1, h2, List.getD_cons_succ]
      have := ih (l.drop 8) (i - 8) (by simp [divCeil8] at h ⊢; omega)
      simp only [bitAt] at this
      rw [this]
      simp only [List.getD_eq_getElem?_getD, List.getElem?_drop]
      congr 2
      omega

theorem flatMap_slice {W : Nat} (w : Nat) (l : List (BitVec W)) (i : Nat) (hi : i < l.length) :
    ((l.flatMap fun v => leBytes w v.toNat).drop (i * w)).take w = leBytes w l[i].toNat := by
  induction l generalizing i with
  | nil => simp at hi
  | cons v l ih =>
    cases i with
    | zero => simp
    | succ i =>
      rw [List.flatMap_cons]
      have : (i + 1) * w = (leBytes w v.toNat).length + i * w := by
        rw [leBytes_length, Nat.add_mul]; omega
      rw [this, List.drop_append, List.drop_eq_nil_of_le (by omega), List.nil_append]
      have h2 : (leBytes w v.toNat).length + i * w - (leBytes w v.toNat).length = i * w := by omega
      rw [h2]
      exact ih i (by simpa using hi)

/-- Value level of `hashInsert`: the new pair wins for its key, the rest is unchanged. -/
theorem hashInsert_find {eq : κ → κ → Bool}
    (hsymm : ∀ a b, eq a b = eq b a) (htrans : ∀ a b c, eq a b = true → eq b c = true → eq a c = true)
    (l : List (κ × ν)) (p : κ × ν) (k : κ) :
    ((hashInsert eq l p).find? fun e => eq e.1 k).map Prod.snd =
      if eq p.1 k then some p.2 else (l.find? fun e => eq e.1 k).map Prod.snd := by
  unfold hashInsert
  split
  · rename_i hany
    rw [List.find?_map]
    have hcomp : ((fun e : κ × ν => eq e.1 k) ∘ fun e => if eq e.1 p.1 = true then (e.1, p.2) else e)
        = fun e => eq e.1 k := by
      funext e
      simp only [Function.comp]
      split <;> rfl
    rw [hcomp]
    by_cases hpk : eq p.1 k = true
    · rw [if_pos hpk]
      simp only [List.any_eq_true] at hany
      obtain ⟨x, hx, hxp⟩ := hany
      cases hf : l.find? (fun e => eq e.1 k) with
      | none =>
        have := List.find?_eq_none.1 hf x hx
        exact absurd (htrans _ _ _ hxp hpk) this
      | some y =>
        have hy := List.find?_some hf
        have : eq y.1 p.1 = true := htrans _ _ _ hy (by rw [hsymm]; exact hpk)
        simp [this]
    · rw [if_neg hpk]
      cases hf : l.find? (fun e => eq e.1 k) with
      | none => simp
      | some y =>
        have hy := List.find?_some hf
        have : eq y.1 p.1 ≠ true := by
          intro h
          rw [hsymm] at h
          exact hpk (htrans _ _ _ h hy)
        simp [this]
  · rename_i hany
    simp only [List.any_eq_true, not_exists, not_and, Bool.not_eq_true] at hany
    rw [List.find?_append]
    cases hf : l.find? (fun e => eq e.1 k) with
    | none => by_cases hpk : eq p.1 k = true <;> simp [hpk]
    | some y =>
      have hy := List.find?_some hf
      have hm := List.mem_of_find?_eq_some hf
      have : ¬ eq p.1 k = true := by
        intro h
        have := hany y hm
        rw [htrans _ _ _ hy (by rw [hsymm]; exact h)] at this
        simp at this
      simp [this]

theorem hash_foldl_find {eq : κ → κ → Bool}
    (hsymm : ∀ a b, eq a b = eq b a) (htrans : ∀ a b c, eq a b = true → eq b c = true → eq a c = true)
    (l : List (κ × ν)) (k : κ) : ∀ acc : List (κ × ν),
    ((l.foldl (hashInsert eq) acc).find? fun e => eq e.1 k).map Prod.snd =
      ((l.reverse.find? fun e => eq e.1 k).map Prod.snd).or
        ((acc.find? fun e => eq e.1 k).map Prod.snd) := by
  induction l with
  | nil => intro acc; simp
  | cons p l ih =>
    intro acc
    rw [List.foldl_cons, ih, hashInsert_find hsymm htrans]
    simp only [List.reverse_cons, List.find?_append]
    cases hf : l.reverse.find? (fun e => eq e.1 k) with
    | some y => simp
    | none => by_cases hpk : eq p.1 k = true <;> simp [hpk]

theorem reverse_find (l : List α) (p : α → Bool) :
    l.reverse.find? p = (l.filter p).getLast? := by
  rw [← List.head?_filter, List.filter_reverse, List.head?_reverse]

end Revision
