import Verif.Proofs.Borrow
import Verif.Model.Reader

/-!
# C116: what is borrowed from a reader stays valid

`read_borrowed_bytes` and the generated walkers hand out references into a reader's memory that outlive the calls they
came from.  `BorrowedReader` is an `unsafe trait`; its comment gives four promises that make this sound.
-/

namespace Revision

open Unsafe Borrow

variable {σ : Type}

/-- **C116** (bytes taken), the part that holds.  With a reader that keeps the contract and whose `peek_bytes(n)` returns
`n` bytes, `read_borrowed_bytes` has no undefined behaviour; what it returns are the `n` bytes that were peeked, and they
stay valid and unchanged whatever is called later.

Missing: readers that keep the contract and whose `peek_bytes(n)` may return fewer bytes (`C116_taken_false`). -/
theorem C116_taken_partial (R : Reader σ) (hR : Contract R) (hx : Exact R) (n : Nat) :
    (readBorrowed R n).Safe ∧
    ∀ s p s', (readBorrowed R n).run s = (.ok p, s') → ∃ b, b.length = n ∧ R.peek s n = (.ok p, (R.peek s n).2) ∧
      ∀ s'', Reach R (R.peek s n).2 s'' → (R.mem s'').load p = some b := by
  refine ⟨fun s => ?_, fun s p s' h => ?_⟩
  · rw [readBorrowed_run]
    cases hp : (R.peek s n).1 with
    | ok p =>
      simp only
      cases (R.advance (R.peek s n).2 n).1 with
      | ok u =>
        simp only
        have h1 : R.peek s n = (.ok p, (R.peek s n).2) := by rw [← hp]
        rw [(fromRaw_run hR.lifetime (.peek h1) (Call.advance _ n).reach (Nat.le_of_eq (hx h1).symm)).1]
        exact nofun
      | err e => exact nofun
      | panic => exact nofun
    | err e => exact nofun
    | panic => exact nofun
  · rw [readBorrowed_run] at h
    cases hp : (R.peek s n).1 with
    | ok q =>
      rw [hp] at h
      simp only at h
      cases ha : (R.advance (R.peek s n).2 n).1 with
      | ok u =>
        rw [ha] at h
        simp only at h
        have h1 : R.peek s n = (.ok q, (R.peek s n).2) := by rw [← hp]
        have hq : (⟨q.alloc, q.off, n⟩ : Slice) = q := by rw [← hx h1]
        have h2 := fromRaw_run hR.lifetime (.peek h1) (Call.advance _ n).reach (Nat.le_of_eq (hx h1).symm)
        rw [h2.1, hq] at h
        injection h with h _
        injection h with h
        subst h
        obtain ⟨b, hb, _⟩ := h2.2
        refine ⟨b, ?_, h1, fun s'' hr => by rw [hR.lifetime (.peek h1) hr, hb]⟩
        rw [← hx h1]
        unfold Mem.load at hb
        split at hb
        · split at hb
          · injection hb with hb; subst hb; simp; omega
          · cases hb
        · cases hb
      | err e => rw [ha] at h; injection h with h _; cases h
      | panic => rw [ha] at h; injection h with h _; cases h
    | err e => rw [hp] at h; injection h with h _; cases h
    | panic => rw [hp] at h; injection h with h _; cases h

/-- A reader of one byte that always peeks at what there is, and does not move. -/
def shortPeek : Reader Unit where
  mem _ := fun id => if id = 0 then some [7] else none
  peek _ n := (.ok ⟨0, 0, min n 1⟩, ())
  advance _ _ := (.ok (), ())
  read _ _ := (.ok [], ())
  remaining _ := (⟨0, 0, 1⟩, ())
  peek_live := by
    intro s n p s' h
    injection h with h _
    injection h with h
    subst h
    simp only [Mem.load, if_true]
    rw [if_pos (by show 0 + min n 1 ≤ 1; omega)]
    exact nofun
  remaining_live := by
    intro s p s' h
    injection h with h _
    subst h
    decide

/-- **C116**, against the full statement: the four bullets do not ask that `peek_bytes(n)` return `n` bytes.  A reader can
keep all four and `read_borrowed_bytes` makes a reference to memory past the end of an allocation. -/
theorem C116_taken_false : ∃ R : Reader Unit, Contract R ∧ ((readBorrowed R 2).run ()).1 = .ub :=
  ⟨shortPeek, ⟨fun _ _ => rfl, fun _ _ => rfl, fun _ _ => rfl, fun _ => Nat.le_refl 1⟩, rfl⟩

/-- **C116** (bytes of a skipped field).  With a reader that keeps the first three promises, and whatever safe code skips
the field, the walkers' way to the bytes of a field has no undefined behaviour.  It returns as many bytes of those that
were unread before as are no longer unread, and they stay valid and unchanged whatever is called later; if there are more
unread bytes than before, it returns the error for that. -/
theorem C116_field (R : Reader σ)
    (hR : ∀ {p s s'}, Returned R p s → Reach R s s' → (R.mem s').load p = (R.mem s).load p) (skip : Client Unit) :
    (wirePath R skip).Safe ∧
    ∀ s t, skip.on R (R.remaining s).2 = (.ok (), t) →
      if (R.remaining s).1.len < (R.remaining t).1.len then ((wirePath R skip).run s).1 = .err .contractViolation
      else ∃ p b, ((wirePath R skip).run s).1 = .ok p ∧ (R.mem (R.remaining s).2).load (R.remaining s).1 = some b ∧
        ∀ s'', Reach R (R.remaining t).2 s'' →
          (R.mem s'').load p = some (b.take ((R.remaining s).1.len - (R.remaining t).1.len)) := by
  have key : ∀ s t, skip.on R (R.remaining s).2 = (.ok (), t) → Reach R (R.remaining s).2 (R.remaining t).2 := by
    intro s t h
    have := (skip.on_reach R (R.remaining s).2).1
    rw [h] at this
    exact this.trans (Call.remaining t).reach
  refine ⟨fun s => ?_, fun s t h => ?_⟩
  · rw [wirePath_run]
    have hub := (skip.on_reach R (R.remaining s).2).2
    cases ht : skip.on R (R.remaining s).2 with
    | mk o t =>
      rw [ht] at hub
      cases o with
      | ok u =>
        simp only
        split
        · rw [(fromRaw_run hR (.remaining (s₀ := s) rfl) (key s t ht) (Nat.sub_le _ _)).1]
          exact nofun
        · exact nofun
      | err e => exact nofun
      | panic => exact nofun
      | ub => exact absurd rfl hub
  · rw [wirePath_run, h]
    simp only
    split
    · rw [if_neg (by omega)]
    · rw [if_pos (by omega)]
      have h2 := fromRaw_run hR (.remaining (s₀ := s) rfl) (key s t h) (Nat.sub_le (R.remaining s).1.len (R.remaining t).1.len)
      rw [h2.1]
      obtain ⟨b, hb, hall⟩ := h2.2
      exact ⟨_, b, rfl, hb, hall⟩

/-- **C116** (the crate's readers).  `&[u8]` and `SliceReader` keep the contract, and peek at as many bytes as they are
asked for; so does `&mut R` for any reader that does. -/
theorem C116_readers (b : Bytes) : Contract (sliceReader b) ∧ Exact (sliceReader b) :=
  ⟨slice_contract b, slice_exact b⟩

@[inherit_doc C116_readers]
theorem C116_readers_mut (R : Reader σ) (hR : Contract R) (hx : Exact R) : Contract R.byMut ∧ Exact R.byMut :=
  ⟨⟨fun h c => hR.stable (by cases h with | peek h => exact .peek h | remaining h => exact .remaining h)
      (by cases c with
        | peek n => exact .peek _ n
        | advance n => exact .advance _ n
        | read n => exact .read _ n
        | remaining => exact .remaining _),
    fun {p s s' n} h r => hR.advance (n := n) (by cases h with | peek h => exact .peek h | remaining h => exact .remaining h) (reach r),
    fun h r => hR.lifetime (by cases h with | peek h => exact .peek h | remaining h => exact .remaining h) (reach r),
    fun h => hR.monotone h⟩, fun h => hx h⟩
where
  reach {s s' : σ} (r : Reach R.byMut s s') : Reach R s s' := by
    induction r with
    | refl => exact .refl _
    | step _ c ih =>
      refine .step ih ?_
      cases c with
      | peek n => exact .peek _ n
      | advance n => exact .advance _ n
      | read n => exact .read _ n
      | remaining => exact .remaining _

/-- **C116** (bytes taken from a slice).  From `&[u8]` with `b` unread from position `s` on, `read_borrowed_bytes(n)` takes
what the model of the other properties says: the next `n` bytes, or the error of a short input. -/
theorem C116_slice_taken (b : Bytes) (s : Fin (b.length + 1)) (n : Nat) :
    match (readBorrowed (sliceReader b) n).run s with
    | (.ok p, t) => ((sliceReader b).mem t).load p = some ((b.drop s.val).take n) ∧ b.drop t.val = (b.drop s.val).drop n ∧
        n ≤ (b.drop s.val).length
    | (.err e, t) => e = .io ∧ t = s ∧ (b.drop s.val).length < n
    | _ => False := by
  rw [readBorrowed_run]
  by_cases h : s.val + n ≤ b.length
  · have e1 : (sliceReader b).peek s n = (.ok ⟨0, s.val, n⟩, s) := by simp [sliceReader, h]
    have e2 : (sliceReader b).advance s n = (.ok (), ⟨s.val + n, by omega⟩) := by simp [sliceReader, h]
    rw [e1]
    simp only
    rw [e2]
    simp only [fromRaw]
    rw [slice_load b _ _ _ h]
    simp only [Option.isSome_some, if_true]
    refine ⟨slice_load b _ _ _ h, ?_, ?_⟩
    · rw [List.drop_drop]
    · rw [List.length_drop]; omega
  · have e1 : (sliceReader b).peek s n = (.err .io, s) := by simp [sliceReader, h]
    rw [e1]
    simp only
    exact ⟨trivial, trivial, by rw [List.length_drop]; omega⟩

/-- **C116** (bytes of a skipped field of a slice).  On `&[u8]`, whatever safe code skips the field, the bytes returned and
those still unread are together those that were unread before: nothing is lost, repeated or out of place. -/
theorem C116_slice_field (b : Bytes) (s : Fin (b.length + 1)) (skip : Client Unit) :
    match (wirePath (sliceReader b) skip).run s with
    | (.ok p, t) => ∃ f, ((sliceReader b).mem t).load p = some f ∧ f ++ b.drop t.val = b.drop s.val
    | (.ub, _) => False
    | (o, t) => ∃ o', skip.on (sliceReader b) s = (o', t) ∧ (o = .panic ↔ o' = .panic) ∧ ∀ e, o = .err e ↔ o' = .err e := by
  rw [wirePath_run]
  have e0 : ∀ s, (sliceReader b).remaining s = (⟨0, s.val, b.length - s.val⟩, s) := fun _ => rfl
  have hub := (skip.on_reach (sliceReader b) s).2
  have hre := (skip.on_reach (sliceReader b) s).1
  rw [e0]
  simp only
  cases ht : skip.on (sliceReader b) s with
  | mk o t =>
    rw [ht] at hub hre
    have hle := slice_reach b hre
    have hlt := t.isLt
    cases o with
    | ok u =>
      simp only [e0]
      have hlen : b.length - t.val ≤ b.length - s.val := Nat.sub_le_sub_left hle _
      rw [if_pos hlen]
      simp only [fromRaw]
      have hl := slice_load b t s.val (b.length - s.val - (b.length - t.val)) (by omega)
      rw [hl]
      simp only [Option.isSome_some, if_true]
      refine ⟨_, hl, ?_⟩
      have : b.drop t.val = (b.drop s.val).drop (b.length - s.val - (b.length - t.val)) := by
        rw [List.drop_drop]; congr 1; omega
      rw [this, List.take_append_drop]
    | err e => exact ⟨_, rfl, by simp, by simp⟩
    | panic => exact ⟨_, rfl, by simp, by simp⟩
    | ub => exact absurd rfl hub

/-! ### The hypotheses are met -/

/-- A field of two bytes skipped on a slice. -/
example : ((wirePath (sliceReader [1, 2, 3, 4]) (.advance 2 fun _ => .ret ())).run ⟨1, by decide⟩).1 = .ok ⟨0, 1, 2⟩ ∧
    ((readBorrowed (sliceReader [1, 2, 3, 4]) 3).run ⟨1, by decide⟩).1 = .ok ⟨0, 1, 3⟩ ∧
    ((readBorrowed (sliceReader [1, 2, 3, 4]) 4).run ⟨1, by decide⟩).1 = .err .io := by decide +kernel

/-- A reader that keeps the first three promises and not the fourth: the error, and no undefined behaviour. -/
private def grows : Reader Nat where
  mem _ := fun id => if id = 0 then some [5, 6, 7] else none
  peek s _ := (.err .io, s)
  advance s _ := (.ok (), s + 1)
  read s _ := (.ok [], s)
  remaining s := (⟨0, 0, min s 3⟩, s)
  peek_live := by intro s n p s' h; injection h with h _; cases h
  remaining_live := by
    intro s p s' h
    injection h with h _
    subst h
    simp only [Mem.load, if_true]
    rw [if_pos (by show 0 + min s 3 ≤ 3; omega)]
    exact nofun

example : ((wirePath grows (.advance 2 fun _ => .ret ())).run 1).1 = .err .contractViolation := by decide +kernel

/-- C116: a client finds in a slice the bytes that are unread, and leaves what it has not read. -/
theorem C116_slice_client {α : Type} (b : Bytes) (c : Client α) (s : Fin (b.length + 1)) :
    let x := c.on (sliceReader b) s
    (x.1, b.drop x.2.val) = c.plainly (b.drop s.val) := by
  have len : ∀ s : Fin (b.length + 1), (b.drop s.val).length = b.length - s.val := fun s => by simp
  have le : ∀ (s : Fin (b.length + 1)) n, s.val + n ≤ b.length ↔ n ≤ (b.drop s.val).length := fun s n => by
    have := s.isLt
    rw [len]; omega
  induction c generalizing s with
  | ret a => rfl
  | fail e => rfl
  | panic => rfl
  | peek n k ih =>
    show _ = (k _).plainly _
    by_cases h : s.val + n ≤ b.length
    · rw [if_pos ((le s n).1 h)]
      have e : shown (sliceReader b) ((sliceReader b).peek s n).2 ((sliceReader b).peek s n).1 =
          .ok ((b.drop s.val).take n) := by
        simp only [sliceReader, h, if_true, shown]
        rw [show (Mem.load (fun id => if id = 0 then some b else none) ⟨0, s.val, n⟩ : Option Bytes) = _ from
          slice_load b s s.val n h]
        rfl
      rw [← e]
      exact ih _ s
    · rw [if_neg (fun h' => h ((le s n).2 h'))]
      have e : shown (sliceReader b) ((sliceReader b).peek s n).2 ((sliceReader b).peek s n).1 = .err .io := by
        simp only [sliceReader, h, if_false, shown]
      rw [← e]
      exact ih _ s
  | advance n k ih =>
    by_cases h : s.val + n ≤ b.length
    · have e : (sliceReader b).advance s n = (.ok (), ⟨s.val + n, by omega⟩) := by simp [sliceReader, h]
      rw [Client.plainly, if_pos ((le s n).1 h), List.drop_drop]
      unfold Client.on
      rw [e]
      exact ih _ _
    · have e : (sliceReader b).advance s n = (.err .io, s) := by simp [sliceReader, h]
      rw [Client.plainly, if_neg (fun h' => h ((le s n).2 h'))]
      unfold Client.on
      rw [e]
      exact ih _ _
  | read n k ih =>
    have := s.isLt
    have e : b.drop (min (s.val + n) b.length) = (b.drop s.val).drop n := by
      rw [List.drop_drop]
      by_cases h : s.val + n ≤ b.length
      · rw [Nat.min_eq_left h]
      · rw [Nat.min_eq_right (by omega), List.drop_eq_nil_of_le (Nat.le_refl _), List.drop_eq_nil_of_le (by omega)]
    rw [Client.plainly, ← e]
    exact ih _ _
  | remaining k ih =>
    have := s.isLt
    have e : (((sliceReader b).mem s).load ⟨0, s.val, b.length - s.val⟩).getD [] = b.drop s.val := by
      rw [slice_load b _ _ _ (by omega), List.take_of_length_le (by rw [List.length_drop]; exact Nat.le_refl _)]
      rfl
    have h := ih (b.drop s.val) s
    have e' : (Client.remaining k).on (sliceReader b) s = (k (b.drop s.val)).on (sliceReader b) s := by
      conv => rhs; rw [← e]
      rfl
    rw [Client.plainly, e']
    exact h

/-- Skipping a string: its length is in the first byte. -/
example : (Client.peek 1 fun
      | .ok [n] => .advance (1 + n.toNat) fun
        | .ok () => .remaining fun u => .ret u.length
        | .err e => .fail e
        | .panic => .panic
      | .err e => .fail e
      | _ => .panic).on (sliceReader [9, 2, 97, 98, 7]) ⟨1, by decide⟩ = (.ok 1, ⟨4, by decide⟩) := by decide +kernel

/-- The model knows dangling pointers: a reader whose buffer is replaced on `advance`, which the second promise
forbids. -/
private def refills : Reader Nat where
  mem s := fun id => if id = s then some [1, 2] else none
  peek s n := (if n ≤ 2 then .ok ⟨s, 0, n⟩ else .err .io, s)
  advance s _ := (.ok (), s + 1)
  read s _ := (.ok [], s)
  remaining s := (⟨s, 0, 2⟩, s)
  peek_live := by
    intro s n p s' h
    injection h with h hs
    split at h
    · rename_i hn
      injection h with h; subst h; subst hs
      simp [Mem.load, hn]
    · cases h
  remaining_live := by
    intro s p s' h
    injection h with h hs
    subst h; subst hs
    simp [Mem.load]

example : ((readBorrowed refills 2).run 0).1 = .ub := rfl

/-- A reader that leaves out `remaining`: the bytes of a skipped field are empty, without an error. -/
example : ((wirePath ((sliceReader [1, 2, 3]).withoutRemaining 0 fun _ => rfl) (.advance 2 fun _ => .ret ())).run
    ⟨0, by decide⟩).1 = .ok ⟨0, 0, 0⟩ := by decide +kernel

end Revision
