import Verif.Proofs.Extent
import Verif.Props.DeriveIo
import Verif.Props.Machine

/-!
# Property C136: what follows a value is not looked at

For the types of a program, derived or not, alone or inside the supported types: whatever the bytes, reading, skipping and checking
look at the bytes they consume and at no others, and skipping a slice is skipping a reader.
`(t.codec cfg (I.env n (P.codec cfg I n)))` is the type `t` built of the types of the program `P`; `Ty.ext i` is its type `i`.
-/

namespace Revision

open Machine

variable {ι : Type} [DecidableEq ι] (cfg : Cfg) (P : Program ι) (I : Impls P.kind) (n : Nat) (t : Ty ι)

/-- C136: reading consumes a prefix of its input.  Followed by anything else, the same bytes are read as the same value and what follows
is left; cut short anywhere, they are refused. -/
theorem C136_read (s r : Bytes) (v : t.denote (Values P.kind n))
    (h : (t.codec cfg (I.env n (P.codec cfg I n))).dec s = .ok (v, r)) :
    ∃ u, s = u ++ r ∧ (∀ other, (t.codec cfg (I.env n (P.codec cfg I n))).dec (u ++ other) = .ok (v, other)) ∧
      ∀ p q, u = p ++ q → q ≠ [] → ∃ e, (t.codec cfg (I.env n (P.codec cfg I n))).dec p = .err e := by
  have hm := Ty.io_models cfg (E := I.env n (P.codec cfg I n)) (fun i => P.io_models cfg I n i) t
  rw [← hm.dec] at h ⊢
  exact Prog.framed _ s v r h

/-- C136: the same on every machine. -/
theorem C136_read_machine (M : Machine) (s r : Bytes) (v : t.denote (Values P.kind n))
    (h : (M.codec cfg (I.env n (M.program cfg P I n)) t).dec s = .ok (v, r)) :
    ∃ u, s = u ++ r ∧ (∀ other, (M.codec cfg (I.env n (M.program cfg P I n)) t).dec (u ++ other) = .ok (v, other)) ∧
      ∀ p q, u = p ++ q → q ≠ [] → ∃ e, (M.codec cfg (I.env n (M.program cfg P I n)) t).dec p = .err e :=
  codec_framed (E := I.env n (M.program cfg P I n)) (fun i => program_framed M cfg P I i n) t s v r h

/-- C136: so does skipping. -/
theorem C136_skip (s r : Bytes) (h : (t.codec cfg (I.env n (P.codec cfg I n))).skip s = .ok ((), r)) :
    ∃ u, s = u ++ r ∧ (∀ other, (t.codec cfg (I.env n (P.codec cfg I n))).skip (u ++ other) = .ok ((), other)) ∧
      ∀ p q, u = p ++ q → q ≠ [] → ∃ e, (t.codec cfg (I.env n (P.codec cfg I n))).skip p = .err e := by
  have hm := Ty.io_models cfg (E := I.env n (P.codec cfg I n)) (fun i => P.io_models cfg I n i) t
  rw [← hm.skip] at h ⊢
  exact Prog.framed _ s () r h

/-- C136: and the checking skip. -/
theorem C136_check (s r : Bytes) (h : (t.codec cfg (I.env n (P.codec cfg I n))).check s = .ok ((), r)) :
    ∃ u, s = u ++ r ∧ (∀ other, (t.codec cfg (I.env n (P.codec cfg I n))).check (u ++ other) = .ok ((), other)) ∧
      ∀ p q, u = p ++ q → q ≠ [] → ∃ e, (t.codec cfg (I.env n (P.codec cfg I n))).check p = .err e := by
  have hm := Ty.io_models cfg (E := I.env n (P.codec cfg I n)) (fun i => P.io_models cfg I n i) t
  rw [← hm.check] at h ⊢
  exact Prog.framed _ s () r h

/-- C136: on every machine and whatever the bytes, skipping a slice is skipping a reader: the same bytes are left, or the error is
the same. -/
theorem C136_slice (M : Machine) (s : Bytes) :
    (M.codec cfg (I.env n (M.program cfg P I n)) t).skipS s = (M.codec cfg (I.env n (M.program cfg P I n)) t).skip s := by
  rw [codec_skipS (E := I.env n (M.program cfg P I n)) (fun i => program_skipS M cfg P I i n) t]

/-- C136: in the model of the other properties. -/
theorem C136_slice_host (s : Bytes) :
    (t.codec cfg (I.env n (P.codec cfg I n))).skipS s = (t.codec cfg (I.env n (P.codec cfg I n))).skip s := by
  have h := C136_slice cfg P I n t host s
  have hp : host.program cfg P I n = P.codec cfg I n := funext fun i => (C130_host cfg).2.1 P I n i
  rwa [hp, (C130_host cfg).1] at h

/-- C136: `skip_slice` answers `k` iff skipping a reader over the same bytes consumes the first `k` of them, and an error iff that is
the error there. -/
theorem C136_count (s : Bytes) :
    (∀ k, (t.codec cfg (I.env n (P.codec cfg I n))).skipSlice s = .ok k ↔
      ∃ u r, s = u ++ r ∧ u.length = k ∧ (t.codec cfg (I.env n (P.codec cfg I n))).skip s = .ok ((), r)) ∧
    ∀ e, (t.codec cfg (I.env n (P.codec cfg I n))).skipSlice s = .err e ↔
      (t.codec cfg (I.env n (P.codec cfg I n))).skip s = .err e := by
  unfold Codec.skipSlice
  rw [C136_slice_host]
  cases h : (t.codec cfg (I.env n (P.codec cfg I n))).skip s with
  | ok x =>
    obtain ⟨⟨⟩, r⟩ := x
    obtain ⟨u, rfl, -, -⟩ := C136_skip cfg P I n t s r h
    refine ⟨fun k => ⟨fun hk => ⟨u, r, rfl, ?_, rfl⟩, ?_⟩, fun e => ⟨nofun, nofun⟩⟩
    · simp only [List.length_append, Res.ok.injEq] at hk
      omega
    · rintro ⟨u', r', e1, e2, e3⟩
      cases e3
      have := congrArg List.length e1
      simp only [List.length_append] at this ⊢
      congr 1
      omega
  | err e => exact ⟨fun k => ⟨nofun, fun ⟨_, _, _, _, h⟩ => nomatch h⟩, fun e' => ⟨fun h => by cases h; rfl, fun h => by cases h; rfl⟩⟩
  | panic => exact ⟨fun k => ⟨nofun, fun ⟨_, _, _, _, h⟩ => nomatch h⟩, fun e => ⟨nofun, nofun⟩⟩

/-- C136: a derived type is skipped on any reader, however it cuts the bytes into pieces, as in a slice of the bytes it delivers. -/
theorem C136_reader (buf : Nat → Nat) (i : ι) :
    SameAsSlice ((P.io cfg I n i).skip.onStream buf) (P.codec cfg I n i).skipS := by
  rw [show (P.codec cfg I n i).skipS = (P.codec cfg I n i).skip from Rd.same (C136_slice_host cfg P I n (.ext i))]
  exact C90_skip cfg P I buf n i

/-! ### The demonstration -/

/-- The tree of the demonstration program, followed by one byte and then by two others. -/
example : ∃ u, ([2, 1, 2, 2, 0, 5, 0, 2, 1, 0, 77] : Bytes) = u ++ [77] ∧
    (∀ other, (demoProgram.codec .default demoImpls 3 .tree).dec (u ++ other) = .ok (demoTreeNew, other)) ∧
    ∀ p q, u = p ++ q → q ≠ [] → ∃ e, (demoProgram.codec .default demoImpls 3 .tree).dec p = .err e :=
  C136_read .default demoProgram demoImpls 3 (.ext .tree) [2, 1, 2, 2, 0, 5, 0, 2, 1, 0, 77] [77] demoTreeNew (by rfl)

example : ∃ u, ([2, 1, 2, 2, 0, 5, 0, 2, 1, 0, 77] : Bytes) = u ++ [77] ∧
    (∀ other, ((small true).program .default demoProgram demoImpls 3 .tree).dec (u ++ other) = .ok (demoTreeNew, other)) ∧
    ∀ p q, u = p ++ q → q ≠ [] → ∃ e, ((small true).program .default demoProgram demoImpls 3 .tree).dec p = .err e :=
  C136_read_machine .default demoProgram demoImpls 3 (.ext .tree) (small true) [2, 1, 2, 2, 0, 5, 0, 2, 1, 0, 77] [77] demoTreeNew (by rfl)

/-- It is skipped and checked in the same way. -/
example : (∃ u, ([2, 1, 2, 2, 0, 5, 0, 2, 1, 0, 77] : Bytes) = u ++ [77] ∧
      (∀ other, (demoProgram.codec .default demoImpls 3 .tree).skip (u ++ other) = .ok ((), other)) ∧
      ∀ p q, u = p ++ q → q ≠ [] → ∃ e, (demoProgram.codec .default demoImpls 3 .tree).skip p = .err e) ∧
    ∃ u, ([2, 1, 2, 2, 0, 5, 0, 2, 1, 0, 77] : Bytes) = u ++ [77] ∧
      (∀ other, (demoProgram.codec .default demoImpls 3 .tree).check (u ++ other) = .ok ((), other)) ∧
      ∀ p q, u = p ++ q → q ≠ [] → ∃ e, (demoProgram.codec .default demoImpls 3 .tree).check p = .err e :=
  ⟨C136_skip .default demoProgram demoImpls 3 (.ext .tree) [2, 1, 2, 2, 0, 5, 0, 2, 1, 0, 77] [77] (by rfl),
    C136_check .default demoProgram demoImpls 3 (.ext .tree) [2, 1, 2, 2, 0, 5, 0, 2, 1, 0, 77] [77] (by rfl)⟩

/-- In pieces, and on a 32-bit machine. -/
example : (∃ s', (demoProgram.io .default demoImpls 3 .tree).skip.onStream (fun _ => 32)
      [.data [2, 1], .data [2, 2, 0], .interrupted, .data [5, 0, 2], .data [1, 0, 77]] = .ok ((), s') ∧ s'.content = [77]) ∧
    ((small true).program .default demoProgram demoImpls 3 .tree).skipS [2, 1, 2, 2, 0, 5, 0, 2, 1, 0, 77] = .ok ((), [77]) :=
  ⟨C136_reader .default demoProgram demoImpls 3 (fun _ => 32) .tree
      [.data [2, 1], .data [2, 2, 0], .interrupted, .data [5, 0, 2], .data [1, 0, 77]],
    (C136_slice .default demoProgram demoImpls 3 (.ext .tree) (small true) [2, 1, 2, 2, 0, 5, 0, 2, 1, 0, 77]).trans (by rfl)⟩

/-- Skipped in a slice it takes ten bytes. -/
example : (demoProgram.codec .default demoImpls 3 .tree).skipSlice [2, 1, 2, 2, 0, 5, 0, 2, 1, 0, 77] = .ok 10 :=
  ((C136_count .default demoProgram demoImpls 3 (.ext .tree) [2, 1, 2, 2, 0, 5, 0, 2, 1, 0, 77]).1 10).2
    ⟨[2, 1, 2, 2, 0, 5, 0, 2, 1, 0], [77], rfl, rfl, by rfl⟩

end Revision
