import Verif.Spec.Borrow
import Verif.Proofs.Unsafe

/-! # Lemmas on borrowed readers -/

namespace Revision.Borrow

open Unsafe

variable {σ α : Type}

theorem Reach.trans {R : Reader σ} {s t u : σ} (h : Reach R s t) (h' : Reach R t u) : Reach R s u := by
  induction h' with
  | refl => exact h
  | step _ hc ih => exact .step ih hc

theorem Call.reach {R : Reader σ} {s t : σ} (h : Call R s t) : Reach R s t := .step (.refl s) h

/-- A client leaves the reader in a state that its calls can reach, and has no undefined behaviour of its own. -/
theorem Client.on_reach (R : Reader σ) (c : Client α) : ∀ s, Reach R s (c.on R s).2 ∧ (c.on R s).1 ≠ .ub := by
  induction c with
  | ret a => exact fun s => ⟨.refl s, nofun⟩
  | fail e => exact fun s => ⟨.refl s, nofun⟩
  | panic => exact fun s => ⟨.refl s, nofun⟩
  | peek n k ih => exact fun s => ⟨(Call.peek s n).reach.trans (ih _ _).1, (ih _ _).2⟩
  | advance n k ih => exact fun s => ⟨(Call.advance s n).reach.trans (ih _ _).1, (ih _ _).2⟩
  | read n k ih => exact fun s => ⟨(Call.read s n).reach.trans (ih _ _).1, (ih _ _).2⟩
  | remaining k ih => exact fun s => ⟨(Call.remaining s).reach.trans (ih _ _).1, (ih _ _).2⟩

theorem load_take {m : Mem} {p : Slice} {b : Bytes} (h : m.load p = some b) {k : Nat} (hk : k ≤ p.len) :
    m.load ⟨p.alloc, p.off, k⟩ = some (b.take k) := by
  unfold Mem.load at h ⊢
  cases ha : m p.alloc with
  | none => rw [ha] at h; cases h
  | some a =>
    rw [ha] at h
    simp only at h ⊢
    split at h
    · injection h with h
      subst h
      rw [if_pos (by omega), List.take_take, Nat.min_eq_left hk]
    · cases h

theorem readBorrowed_run (R : Reader σ) (n : Nat) (s : σ) : (readBorrowed R n).run s =
    match (R.peek s n).1 with
    | .ok p => match (R.advance (R.peek s n).2 n).1 with
      | .ok () => (fromRaw R p n).run (R.advance (R.peek s n).2 n).2
      | .err e => (.err e, (R.advance (R.peek s n).2 n).2)
      | .panic => (.panic, (R.advance (R.peek s n).2 n).2)
    | .err e => (.err e, (R.peek s n).2)
    | .panic => (.panic, (R.peek s n).2) := by
  unfold readBorrowed
  rw [run_bind]
  unfold callPeek
  simp only
  cases (R.peek s n).1 with
  | ok p =>
    simp only [ofRes]
    rw [run_bind]
    unfold callAdvance
    simp only
    cases (R.advance (R.peek s n).2 n).1 <;> rfl
  | err e => rfl
  | panic => rfl

theorem wirePath_run (R : Reader σ) (skip : Client Unit) (s : σ) : (wirePath R skip).run s =
    match skip.on R (R.remaining s).2 with
    | (.ok (), t) => if (R.remaining t).1.len ≤ (R.remaining s).1.len then
        (fromRaw R (R.remaining s).1 ((R.remaining s).1.len - (R.remaining t).1.len)).run (R.remaining t).2
      else (.err .contractViolation, (R.remaining t).2)
    | (.err e, t) => (.err e, t)
    | (.panic, t) => (.panic, t)
    | (.ub, t) => (.ub, t) := by
  unfold wirePath
  rw [run_bind]
  unfold callRemaining
  simp only
  rw [run_bind]
  simp only
  rcases skip.on R (R.remaining s).2 with ⟨o, t⟩
  cases o with
  | ok u =>
    simp only
    rw [run_bind]
    simp only
    split <;> rfl
  | err e => rfl
  | panic => rfl
  | ub => rfl

/-- The pointer of a returned slice serves for any part of it, at any later time. -/
theorem fromRaw_run {R : Reader σ} (h : ∀ {p s s'}, Returned R p s → Reach R s s' → (R.mem s').load p = (R.mem s).load p)
    {p : Slice} {s s' : σ} (hp : Returned R p s) (hs : Reach R s s') {k : Nat} (hk : k ≤ p.len) :
    (fromRaw R p k).run s' = (.ok ⟨p.alloc, p.off, k⟩, s') ∧
      ∃ b, (R.mem s).load p = some b ∧ ∀ s'', Reach R s' s'' → (R.mem s'').load ⟨p.alloc, p.off, k⟩ = some (b.take k) := by
  have hl : ∃ b, (R.mem s).load p = some b := by
    cases hb : (R.mem s).load p with
    | some b => exact ⟨b, rfl⟩
    | none =>
      exfalso
      cases hp with
      | peek h => exact R.peek_live h hb
      | remaining h => exact R.remaining_live h hb
  obtain ⟨b, hb⟩ := hl
  have hall : ∀ s'', Reach R s' s'' → (R.mem s'').load ⟨p.alloc, p.off, k⟩ = some (b.take k) := fun s'' hr =>
    load_take (by rw [h hp (hs.trans hr), hb]) hk
  refine ⟨?_, b, hb, hall⟩
  unfold fromRaw
  simp only
  rw [hall s' (.refl s')]
  rfl

/-! ### Slices -/

theorem slice_mem (b : Bytes) (s t : Fin (b.length + 1)) : (sliceReader b).mem s = (sliceReader b).mem t := rfl

theorem slice_contract (b : Bytes) : Contract (sliceReader b) where
  stable _ _ := rfl
  advance _ _ := rfl
  lifetime _ _ := rfl
  monotone := by
    intro s s' n h
    simp only [sliceReader] at h ⊢
    split at h
    · injection h with _ h
      subst h
      simp only
      omega
    · injection h with h _; cases h

theorem slice_exact (b : Bytes) : Exact (sliceReader b) := by
  intro s n p s' h
  simp only [sliceReader] at h
  injection h with h _
  split at h
  · injection h with h; subst h; rfl
  · cases h

theorem slice_call (b : Bytes) {s t : Fin (b.length + 1)} (h : Call (sliceReader b) s t) : s.val ≤ t.val := by
  cases h with
  | peek n => exact Nat.le_refl _
  | advance n =>
    simp only [sliceReader]
    split
    · exact Nat.le_add_right _ _
    · exact Nat.le_refl _
  | read n => have := s.isLt; simp only [sliceReader]; omega
  | remaining => exact Nat.le_refl _

theorem slice_reach (b : Bytes) {s t : Fin (b.length + 1)} (h : Reach (sliceReader b) s t) : s.val ≤ t.val := by
  induction h with
  | refl => exact Nat.le_refl _
  | step _ hc ih => exact Nat.le_trans ih (slice_call b hc)

theorem slice_load (b : Bytes) (s : Fin (b.length + 1)) (off len : Nat) (h : off + len ≤ b.length) :
    ((sliceReader b).mem s).load ⟨0, off, len⟩ = some ((b.drop off).take len) := by
  simp [sliceReader, Mem.load, h]

end Revision.Borrow
