import Verif.Spec.Cursor
import Verif.Proofs.Rd

/-! # Properties of slice readers: C22, C23 -/

namespace Revision

/-- C22: advancing by `n`, in chunks, is exactly dropping `n` bytes, and an error when fewer
remain. -/
theorem C22_chunked_advance (n : Nat) (s : Bytes) :
    advanceLoop n s = if n ≤ s.length then .ok ((), s.drop n) else .err .io := by
  induction n using Nat.strongRecOn generalizing s with
  | ind n ih =>
    rw [advanceLoop, advanceWith]
    by_cases h0 : n = 0
    · subst h0; simp
    · rw [dif_neg h0, Rd.bind_run]
      simp only [Rd.readExact]
      by_cases h : min n 4096 ≤ s.length
      · rw [if_pos h]
        dsimp only
        rw [← advanceLoop, ih _ (by omega)]
        simp only [List.length_drop, List.drop_drop]
        by_cases h2 : n ≤ s.length
        · rw [if_pos (by omega), if_pos h2]
          congr 3
          omega
        · rw [if_neg (by omega), if_neg h2]
      · rw [if_neg h, if_neg (by omega)]

/-- C22: only requests of at most 4096 bytes reach the reader: two readers that agree on those
cannot be told apart, so the buffer never has to be larger. -/
theorem C22_bounded_chunks (rd rd' : Nat → Rd Bytes) (h : ∀ k, k ≤ 4096 → rd k = rd' k) (n : Nat) :
    advanceWith rd n = advanceWith rd' n := by
  induction n using Nat.strongRecOn with
  | ind n ih =>
    rw [advanceWith.eq_def rd, advanceWith.eq_def rd']
    by_cases h0 : n = 0
    · rw [dif_pos h0, dif_pos h0]
    · rw [dif_neg h0, dif_neg h0, h _ (Nat.min_le_right ..), ih _ (by omega)]

/-- A reader that cannot serve more than 4096 bytes at once still advances by 5000. -/
example : advanceWith (fun k => if k ≤ 4096 then Rd.readExact k else Rd.panic) 5000
    = advanceLoop 5000 :=
  C22_bounded_chunks _ _ (fun k hk => by simp [hk]) _

/-- C22: the net effect used everywhere else in the model is this loop. -/
theorem C22_net_effect (n : Nat) : advanceLoop n = Rd.advance n := by
  ext s : 1
  rw [C22_chunked_advance]
  rfl

example : advanceLoop 5000 (List.replicate 5001 7) = .ok ((), [7]) := by
  rw [C22_chunked_advance]
  decide +kernel

/-- A reader standing at position `pos` of `buf`. -/
def SliceReader.At (r : SliceReader) (buf : Bytes) (pos : Nat) : Prop :=
  pos ≤ buf.length ∧ r.inner = buf.drop pos ∧ r.originalLen = buf.length

theorem slice_drop (buf : Bytes) (i j k : Nat) :
    slice (buf.drop i) j k = slice buf (i + j) (i + k) := by
  simp [slice, List.take_drop, List.drop_drop]

theorem take_drop_slice (buf : Bytes) (i n : Nat) : (buf.drop i).take n = slice buf i (i + n) := by
  simp [slice, List.take_drop]

theorem SliceReader.At.step {r : SliceReader} {buf : Bytes} {pos : Nat} (h : r.At buf pos)
    (op : ROp) :
    (r.step op).1 = (cursorStep buf pos op).1 ∧ (r.step op).2.At buf (cursorStep buf pos op).2 := by
  obtain ⟨inner, ol⟩ := r
  obtain ⟨hp, rfl, rfl⟩ := h
  have hl : (buf.drop pos).length = buf.length - pos := List.length_drop
  cases op with
  | consume n =>
    simp only [SliceReader.step, SliceReader.consume, cursorStep, hl]
    by_cases h : pos + n ≤ buf.length
    · rw [if_neg (by omega), if_pos h]
      exact ⟨rfl, h, by simp, rfl⟩
    · rw [if_pos (by omega), if_neg h]
      exact ⟨rfl, hp, rfl, rfl⟩
  | sub o l =>
    simp only [SliceReader.step, SliceReader.sub, SliceReader.consumedLen, cursorStep, hl]
    rw [if_pos (by omega)]
    have e : buf.length - (buf.length - pos) = pos := by omega
    simp only [e, Res.ok_bind]
    by_cases h1 : o < pos
    · rw [if_pos h1, if_pos h1]
      exact ⟨rfl, hp, rfl, rfl⟩
    · rw [if_neg h1, if_neg h1]
      by_cases h2 : 2 ^ 64 ≤ o - pos + l
      · rw [if_pos h2, if_pos h2]
        exact ⟨rfl, hp, rfl, rfl⟩
      · rw [if_neg h2, if_neg h2]
        by_cases h3 : o + l ≤ buf.length
        · rw [if_neg (by omega), if_pos h3]
          refine ⟨?_, hp, rfl, rfl⟩
          have := slice_drop buf pos (o - pos) (o - pos + l)
          unfold slice at this
          rw [this]
          simp only [slice, Res.map_ok]
          congr 4 <;> try omega
          congr 1; omega
        · rw [if_pos (by omega), if_neg h3]
          exact ⟨rfl, hp, rfl, rfl⟩
  | read n =>
    simp only [SliceReader.step, SliceReader.read, cursorStep, hl, take_drop_slice]
    have : pos + min n (buf.length - pos) = min (pos + n) buf.length := by omega
    refine ⟨by rw [this], by omega, ?_, rfl⟩
    rw [List.drop_drop, this]
  | readExact n =>
    simp only [SliceReader.step, SliceReader.readExact, SliceReader.read, cursorStep, hl,
      List.length_take]
    by_cases h : pos + n ≤ buf.length
    · rw [if_pos (by omega), if_pos h, take_drop_slice]
      have : min n (buf.length - pos) = n := by omega
      refine ⟨by simp [this], h, by simp [this], rfl⟩
    · rw [if_neg (by omega), if_neg h]
      have : min n (buf.length - pos) = buf.length - pos := by omega
      simp only [this, List.drop_drop]
      have e : pos + (buf.length - pos) = buf.length := by omega
      rw [e]
      simp [SliceReader.At]
  | peek n =>
    simp only [SliceReader.step, SliceReader.peek, cursorStep, hl]
    by_cases h : pos + n ≤ buf.length
    · rw [if_pos (by omega), if_pos h, take_drop_slice]
      exact ⟨rfl, hp, rfl, rfl⟩
    · rw [if_neg (by omega), if_neg h]
      exact ⟨rfl, hp, rfl, rfl⟩
  | take n =>
    simp only [SliceReader.step, SliceReader.takeBytes, cursorStep, hl]
    by_cases h : pos + n ≤ buf.length
    · rw [if_neg (by omega), if_pos h, take_drop_slice]
      exact ⟨rfl, h, by simp, rfl⟩
    · rw [if_pos (by omega), if_neg h]
      exact ⟨rfl, hp, rfl, rfl⟩
  | borrow n =>
    simp only [SliceReader.step, SliceReader.readBorrowed, SliceReader.peek, SliceReader.consume,
      cursorStep, hl]
    by_cases h : pos + n ≤ buf.length
    · rw [if_pos (by omega : n ≤ buf.length - pos), if_pos h, take_drop_slice]
      dsimp only
      rw [if_neg (by omega)]
      exact ⟨rfl, h, by simp, rfl⟩
    · rw [if_neg (by omega : ¬ n ≤ buf.length - pos), if_neg h]
      exact ⟨rfl, hp, rfl, rfl⟩
  | position =>
    simp only [SliceReader.step, SliceReader.consumedLen, cursorStep, hl]
    rw [if_pos (by omega)]
    refine ⟨?_, hp, rfl, rfl⟩
    simp
    omega
  | remaining =>
    refine ⟨?_, hp, rfl, rfl⟩
    simp [SliceReader.step, SliceReader.remaining, cursorStep, slice]

theorem SliceReader.At.run {r : SliceReader} {buf : Bytes} {pos : Nat} (h : r.At buf pos)
    (ops : List ROp) :
    (r.run ops).1 = (cursorRun buf pos ops).1 ∧ (r.run ops).2.At buf (cursorRun buf pos ops).2 := by
  induction ops generalizing r pos with
  | nil => exact ⟨rfl, h⟩
  | cons op ops ih =>
    have h1 := h.step op
    have h2 := ih h1.2
    exact ⟨by simp only [SliceReader.run, cursorRun, h1.1, h2.1], h2.2⟩

/-- C23: whatever calls are made on a slice reader over `buf`, in whatever order, they all answer
as a cursor over `buf` would. -/
theorem C23_reader_is_cursor (buf : Bytes) (ops : List ROp) :
    ((SliceReader.new buf).run ops).1 = (cursorRun buf 0 ops).1 :=
  (SliceReader.At.run (r := .new buf) ⟨Nat.zero_le _, rfl, rfl⟩ ops).1

/-- C23: at the end of every history, the bytes consumed and the bytes remaining make up `buf`. -/
theorem C23_consumed_plus_remaining (buf : Bytes) (ops : List ROp) :
    ∃ n, ((SliceReader.new buf).run ops).2.consumedLen = .ok n ∧ n ≤ buf.length ∧
      buf.take n ++ ((SliceReader.new buf).run ops).2.remaining = buf := by
  obtain ⟨h1, h2, h3⟩ := (SliceReader.At.run (r := .new buf) ⟨Nat.zero_le _, rfl, rfl⟩ ops).2
  refine ⟨_, ?_, h1, ?_⟩
  · simp only [SliceReader.consumedLen, h2, h3, List.length_drop]
    rw [if_pos (by omega)]
    congr 1
    omega
  · rw [SliceReader.remaining, h2]
    exact List.take_append_drop _ _

/-- C23: a bare `&[u8]` answers every history of calls (`sub` and `position` aside, which it does
not support) the same way. -/
theorem C23_bare_slices_agree (buf : Bytes) (ops : List ROp)
    (h : ∀ op ∈ ops, op ≠ .position ∧ ∀ o l, op ≠ .sub o l) :
    (sliceRun buf ops).1 = ((SliceReader.new buf).run ops).1 := by
  have key : ∀ (ops : List ROp) (r : SliceReader), (∀ op ∈ ops, op ≠ .position ∧ ∀ o l, op ≠ .sub o l) →
      (sliceRun r.inner ops).1 = (r.run ops).1 := by
    intro ops
    induction ops with
    | nil => intros; rfl
    | cons op ops ih =>
      intro r h
      have h1 : (sliceStep r.inner op).1 = (r.step op).1 ∧
          (sliceStep r.inner op).2 = (r.step op).2.inner := by
        have hop := h op (by simp)
        cases op with
        | position => exact absurd rfl hop.1
        | sub o l => exact absurd rfl (hop.2 o l)
        | consume n =>
          simp only [sliceStep, SliceReader.step, SliceReader.consume]
          split <;> simp
        | read n =>
          simp [sliceStep, SliceReader.step, SliceReader.read, List.take_eq_take_iff]
        | readExact n =>
          simp only [sliceStep, SliceReader.step, SliceReader.readExact, SliceReader.read,
            List.length_take]
          by_cases h : n ≤ r.inner.length
          · rw [if_neg (by omega), if_pos (by omega), Nat.min_eq_left h]
            simp
          · have e : min n r.inner.length = r.inner.length := by omega
            simp only [e]
            rw [if_pos (by omega), if_neg (by omega)]
            simp
        | peek n =>
          simp only [sliceStep, SliceReader.step, SliceReader.peek]
          split <;> simp
        | take n =>
          simp only [sliceStep, SliceReader.step, SliceReader.takeBytes]
          split <;> simp
        | borrow n =>
          simp only [sliceStep, SliceReader.step, SliceReader.readBorrowed, SliceReader.peek,
            SliceReader.consume]
          by_cases h : n ≤ r.inner.length
          · rw [if_pos h, if_pos h]
            dsimp only
            rw [if_neg (by omega)]
            simp
          · rw [if_neg h, if_neg h]
            simp
        | remaining => simp [sliceStep, SliceReader.step, SliceReader.remaining]
      have h2 := ih (r.step op).2 fun o ho => h o (by simp [ho])
      simp only [sliceRun, SliceReader.run]
      rw [h1.1, h1.2, h2]
  exact key ops (.new buf) h

/-- A mixed history: skip 2, take 3, look at an earlier and a later range, overrun. -/
example : ((SliceReader.new [1, 2, 3, 4, 5, 6]).run
      [.consume 2, .take 3, .sub 0 1, .sub 5 1, .consume 9, .position]).1 =
    [.ok .unit, .ok (.bytes [3, 4, 5]), .err .io, .ok (.reader (.new [6])), .err .io,
      .ok (.nat 5)] := by
  decide

end Revision
