import Verif.Proofs.Sink
import Verif.Props.Types

/-!
# Writing to arbitrary writers (C83)

`(t.writes cfg E W.wr v).run w` is `v.serialize_revisioned(&mut w)`: the result, the bytes `w` accepted, and
`w` afterwards.
-/

namespace Revision

variable (cfg : Cfg) {ι : Type} (E : Env ι)

/-- The writers of an environment without further types. -/
def demoWriters : demoEnv.Writers where
  wr := nofun
  to_vec := nofun
  to_vec_bytes := nofun
  small := nofun

theorem Wr.run_eq (x : Wr) (w : Sink) :
    x.run w = match (runOps x.ops w).1 with
      | .ok () => (x.fin, (runOps x.ops w).2)
      | e => (e, (runOps x.ops w).2) := by
  rfl

/-- C83: on a `Vec<u8>` the call-by-call serialiser is the serialiser of all other properties. -/
theorem C83_to_vec (W : E.Writers) (t : Ty ι) (v : t.denote E.X) :
    (∀ b, (t.codec cfg E).toVec v = .ok b → ((t.writes cfg E W.wr v).run .vec).1 = .ok () ∧
      ((t.writes cfg E W.wr v).run .vec).2.1 = b) ∧
    (∀ e, (t.codec cfg E).toVec v = .err e → ((t.writes cfg E W.wr v).run .vec).1 = .err e) ∧
    ((t.codec cfg E).toVec v = .panic → ((t.writes cfg E W.wr v).run .vec).1 = .panic) := by
  have h := t.writes_toRes cfg E W v
  rw [(Wr.run_vec _).1, (Wr.run_vec _).2]
  have ht : (t.codec cfg E).toVec v = (t.codec cfg E).enc v := rfl
  rw [ht, ← h, Wr.toRes]
  cases (t.writes cfg E W.wr v).fin with
  | ok u => cases u; simp
  | err e => simp
  | panic => simp

/-- C83: if serialising reports success, the writer has accepted exactly the bytes of `to_vec`; if it
reports an error, a prefix of them; whatever the writer does (short writes, interruptions, errors, a
full buffer).  For types that write no single `bool`.
Missing for the full statement: `bool`, for which it is false (`C83_bool_false`, `C83_bool_middle_false`). -/
theorem C83_any_writer_partial (W : E.Writers) (hW : W.WriteAll) (t : Ty ι) (ht : t.boolFree cfg = true)
    (v : t.denote E.X) (b : Bytes) (h : (t.codec cfg E).toVec v = .ok b) (w : Sink) :
    (((t.writes cfg E W.wr v).run w).1 = .ok () ∧ ((t.writes cfg E W.wr v).run w).2.1 = b) ∨
    (((t.writes cfg E W.wr v).run w).1 = .err .io ∧
      ∃ c, c ≠ [] ∧ ((t.writes cfg E W.wr v).run w).2.1 ++ c = b) := by
  obtain ⟨h1, h2⟩ := (C83_to_vec cfg E W t v).1 b h
  rw [(Wr.run_vec _).1] at h1
  rw [(Wr.run_vec _).2] at h2
  subst h2
  have ha := t.writes_all cfg E W hW ht v
  rw [Wr.run_eq]
  rcases runOps_spec _ ha w with ⟨h3, h4⟩ | ⟨h3, h4⟩
  · rw [h3]; exact .inl ⟨h1, h4⟩
  · rw [h3]; exact .inr ⟨rfl, h4⟩

/-- C83: for every type, `bool` included, and every writer: the only error is the writer's, reported as an I/O
error, and the writer is handed nothing but bytes of the encoding, in their order. -/
theorem C83_subsequence (W : E.Writers) (t : Ty ι) (v : t.denote E.X) (b : Bytes)
    (h : (t.codec cfg E).toVec v = .ok b) (w : Sink) :
    (((t.writes cfg E W.wr v).run w).1 = .ok () ∨ ((t.writes cfg E W.wr v).run w).1 = .err .io) ∧
      ((t.writes cfg E W.wr v).run w).2.1.Sublist b := by
  obtain ⟨h1, h2⟩ := (C83_to_vec cfg E W t v).1 b h
  rw [(Wr.run_vec _).1] at h1
  rw [(Wr.run_vec _).2] at h2
  subst h2
  obtain ⟨h3, h4⟩ := runOps_sublist (t.writes cfg E W.wr v).ops w
  rw [Wr.run_eq]
  rcases h3 with h3 | h3
  · rw [h3]; exact ⟨.inl h1, h4⟩
  · rw [h3]; exact ⟨.inr rfl, h4⟩

/-- A pair of a `bool` and a byte on a writer that fails at once. -/
example : ((Ty.pair .bool (.int .u8)).writes .default demoEnv demoWriters.wr (true, 7#8)).run ⟨[.failed], none⟩ =
    (.err .io, [], ⟨[], none⟩) := rfl

/-- C83: a value that cannot be serialised is an error on every writer: the serialiser's own, or an I/O
error of the writer before that point. -/
theorem C83_own_error_partial (W : E.Writers) (hW : W.WriteAll) (t : Ty ι) (ht : t.boolFree cfg = true)
    (v : t.denote E.X) (e : Err) (h : (t.codec cfg E).toVec v = .err e) (w : Sink) :
    ((t.writes cfg E W.wr v).run w).1 = .err e ∨ ((t.writes cfg E W.wr v).run w).1 = .err .io := by
  have h1 := (C83_to_vec cfg E W t v).2.1 e h
  rw [(Wr.run_vec _).1] at h1
  have ha := t.writes_all cfg E W hW ht v
  rw [Wr.run_eq]
  rcases runOps_spec _ ha w with ⟨h3, _⟩ | ⟨h3, _⟩
  · rw [h3]; exact .inl h1
  · rw [h3]; exact .inr rfl

/-- C83: on a writer that makes progress and is at most interrupted, serialising succeeds with the bytes
of `to_vec`, however few bytes each `write` call accepts. -/
theorem C83_willing_partial (W : E.Writers) (hW : W.WriteAll) (t : Ty ι) (ht : t.boolFree cfg = true)
    (v : t.denote E.X) (b : Bytes) (h : (t.codec cfg E).toVec v = .ok b) (w : Sink) (hw : w.Willing) :
    ((t.writes cfg E W.wr v).run w).1 = .ok () ∧ ((t.writes cfg E W.wr v).run w).2.1 = b := by
  obtain ⟨h1, h2⟩ := (C83_to_vec cfg E W t v).1 b h
  rw [(Wr.run_vec _).1] at h1
  rw [(Wr.run_vec _).2] at h2
  obtain ⟨h3, h4, _⟩ := runOps_willing _ (t.writes_all cfg E W hW ht v) w hw
  rw [Wr.run_eq, h3]
  exact ⟨h1, h4.trans h2⟩

/-- C83: for every type, `bool` included, on a writer whose every `write` call accepts at least one byte
serialising succeeds with the bytes of `to_vec`. -/
theorem C83_steady (W : E.Writers) (t : Ty ι)
    (v : t.denote E.X) (b : Bytes) (h : (t.codec cfg E).toVec v = .ok b) (w : Sink) (hw : w.Steady) :
    ((t.writes cfg E W.wr v).run w).1 = .ok () ∧ ((t.writes cfg E W.wr v).run w).2.1 = b := by
  obtain ⟨h1, h2⟩ := (C83_to_vec cfg E W t v).1 b h
  rw [(Wr.run_vec _).1] at h1
  rw [(Wr.run_vec _).2] at h2
  obtain ⟨h3, h4, _⟩ := runOps_steady _ (t.writes_small cfg E W v) w hw
  rw [Wr.run_eq, h3]
  exact ⟨h1, h4.trans h2⟩

/-- C83: into a `&mut [u8]` of `n` bytes serialising succeeds exactly if the encoding fits, with the
encoding at the start of the buffer; otherwise it is an I/O error. -/
theorem C83_slice_partial (W : E.Writers) (hW : W.WriteAll) (t : Ty ι) (ht : t.boolFree cfg = true)
    (v : t.denote E.X) (b : Bytes) (h : (t.codec cfg E).toVec v = .ok b) (n : Nat) :
    (b.length ≤ n → (t.writes cfg E W.wr v).run (.slice n) = (.ok (), b, .slice (n - b.length))) ∧
    (n < b.length → (t.writes cfg E W.wr v).run (.slice n) = (.err .io, b.take n, .slice 0)) := by
  obtain ⟨h1, h2⟩ := (C83_to_vec cfg E W t v).1 b h
  rw [(Wr.run_vec _).1] at h1
  rw [(Wr.run_vec _).2] at h2
  rw [Wr.bytesOf] at h2
  have h3 := runOps_slice _ (t.writes_all cfg E W hW ht v) n
  rw [h2] at h3
  constructor
  · intro hn
    rw [if_pos hn] at h3
    rw [Wr.run_eq, h3, h1]
  · intro hn
    rw [if_neg (by omega)] at h3
    rw [Wr.run_eq, h3]

/-- A type and a value of two collections for the examples below, and writers that accept bytes one by
one, that are interrupted and that fail half-way. -/
example : demoTy.boolFree .default = true ∧
    (∃ b, (demoTy.codec .default demoEnv).toVec demoVal = .ok b ∧ b.length = 12) ∧
    Sink.Willing ⟨[.accept 1, .interrupted, .accept 2], none⟩ ∧
    Sink.Steady ⟨[.accept 1, .accept 2], none⟩ := by
  refine ⟨rfl, ⟨_, rfl, by decide +kernel⟩, ⟨rfl, by simp⟩, rfl, by simp⟩

/-- A failing writer has taken a proper prefix. -/
example (w : Sink) (h : ((demoTy.writes .default demoEnv demoWriters.wr demoVal).run w).1 = .err .io) :
    ∃ b c, (demoTy.codec .default demoEnv).toVec demoVal = .ok b ∧ c ≠ [] ∧
      ((demoTy.writes .default demoEnv demoWriters.wr demoVal).run w).2.1 ++ c = b := by
  rcases C83_any_writer_partial .default demoEnv demoWriters nofun demoTy rfl demoVal _ rfl w with h' | h'
  · rw [h] at h'; simp at h'
  · exact ⟨_, _, rfl, h'.2.choose_spec⟩

/-- A time before 1970 is refused on every writer. -/
example (w : Sink) :
    ((Ty.systemTime.writes .default demoEnv demoWriters.wr (-1#64, 0#32)).run w).1 ≠ .ok () := by
  rcases C83_own_error_partial .default demoEnv demoWriters nofun .systemTime rfl (-1#64, 0#32) .serialize rfl w
    with h | h <;> rw [h] <;> simp

/-- The full statement of C83 fails: `bool` is written with `write`, whose result is ignored, so
serialising `true` into an empty buffer reports success and writes nothing. -/
theorem C83_bool_false : ¬ ∀ (t : Ty Empty) (v : t.denote demoEnv.X) (b : Bytes) (w : Sink),
    (t.codec .default demoEnv).toVec v = .ok b →
    ((t.writes .default demoEnv demoWriters.wr v).run w).1 = .ok () →
    ((t.writes .default demoEnv demoWriters.wr v).run w).2.1 = b := fun h => by
  have := h .bool true [1] (.slice 0) rfl rfl
  exact absurd this (by decide)

/-- The same with a writer that once accepts nothing: the `bool` is lost from the middle of a record that
is reported as written. -/
theorem C83_bool_middle_false :
    let t : Ty Empty := .pair (.int .u8) (.pair .bool (.int .u8))
    ∃ (v : t.denote demoEnv.X) (w : Sink),
      (t.codec .default demoEnv).toVec v = .ok [7, 1, 9] ∧
      ((t.writes .default demoEnv demoWriters.wr v).run w).1 = .ok () ∧
      ((t.writes .default demoEnv demoWriters.wr v).run w).2.1 = [7, 9] := by
  refine ⟨(7#8, true, 9#8), ⟨[.accept 1, .accept 0, .accept 1], none⟩, rfl, ?_, ?_⟩
  all_goals
    have e1 : encInt .default .u8 7#8 = [7] := rfl
    have e2 : encInt .default .u8 9#8 = [9] := rfl
    simp [Ty.writes, Wr.run_eq, Wr.andThen, Wr.all, Wr.once, runOps, WOp.run, Sink.writeAll_step,
      Sink.writeAll_nil, Sink.write, e1, e2]

/-- An interrupted `write` of a `bool` is an error, although the writer is willing. -/
theorem C83_bool_interrupted_false :
    Sink.Willing ⟨[.interrupted], none⟩ ∧
    ((Ty.bool.writes .default demoEnv demoWriters.wr true).run ⟨[.interrupted], none⟩).1 = .err .io := by
  refine ⟨⟨rfl, by simp⟩, rfl⟩

end Revision
