import Verif.Proofs.AllocSkip
import Verif.Spec.Demo
import Verif.Props.Program

/-! C94, C95: the memory reading requests. -/

namespace Revision

section
variable {ι : Type}

/-- C94: an input that decodes at all decodes under every allocator that grants buffers of as many elements as
the input has bytes (eight times as many for packed `bool`s): the memory requested for valid input is
bounded by its size.
Missing for the full statement: collections of elements that take no bytes (`C94_weightless_false`), and
inputs that do not decode (`C94_hostile_false`). -/
theorem C94_valid_input_partial (cfg : Cfg) (E : Env ι) (hx : ∀ i, (E.extC i).Heavy) (t : Ty ι)
    (ht : t.solid = true) (s rest : Bytes) (hs : GrantsFor E.cap s.length) (v : t.denote E.X)
    (h : (t.codec cfg E.unlimited).dec s = .ok (v, rest)) : (t.codec cfg E).dec s = .ok (v, rest) :=
  have hw : ∀ i, (E.extC i).dec.Eats 1 := fun i s v r h => hx i s v r h
  (Ty.codec_upto (G := True) (L := s.length) (c' := E.extC) cfg (fun _ => hs)
    (fun i => Rd.Upto.refl ((hw i).weaken (by omega))) hw t (fun _ => ht) s (Nat.le_refl _)).2.2 trivial v rest h

/-- C94 for programs of derived types: the same for every declaration, attribute and older revision read. -/
theorem C94_program_partial [DecidableEq ι] (cfg : Cfg) (P : Program ι) (I : Impls P.kind)
    (hP : ∀ i, ∀ t ∈ (P.body i).types, t.solid = true) (n : Nat) (i : ι) (s rest : Bytes)
    (hs : GrantsFor I.cap s.length) (v : Values P.kind n i)
    (h : (P.codec cfg I.unlimited n i).dec s = .ok (v, rest)) : (P.codec cfg I n i).dec s = .ok (v, rest) :=
  (Program.codec_upto (G := True) (L := s.length) cfg P I (fun _ => hs) (fun _ => hP) n i s (Nat.le_refl _)).2.2
    trivial v rest h

/-- C94: in a program of derived types refused memory shows as a panic and in no other way. -/
theorem C94_program_refusal [DecidableEq ι] (cfg : Cfg) (P : Program ι) (I : Impls P.kind) (n : Nat) (i : ι)
    (s : Bytes) : (P.codec cfg I n i).dec s = .panic ∨
      (P.codec cfg I n i).dec s = (P.codec cfg I.unlimited n i).dec s :=
  (Program.codec_upto (G := False) (L := s.length) cfg P I nofun nofun n i s (Nat.le_refl _)).1

/-- C94 is false for input that does not decode: nine bytes make the decoder of `Vec<String>` ask for
`2^64 - 1` strings before it reads any, so with any allocator that refuses this it panics instead of
returning the error. -/
theorem C94_hostile_false (E : Env ι) (h : E.cap .string (2 ^ 64 - 1) = false) :
    ((Ty.vec .string).codec .default E).dec [253, 255, 255, 255, 255, 255, 255, 255, 255] = .panic ∧
    ∃ e, ((Ty.vec .string).codec .default E).skip [253, 255, 255, 255, 255, 255, 255, 255, 255] = .err e := by
  obtain ⟨m, hm, h1⟩ : ∃ m, m + 1 = 2 ^ 64 - 1 ∧
      readLen .default [253, 255, 255, 255, 255, 255, 255, 255, 255] = .ok (m + 1, []) :=
    ⟨2 ^ 64 - 2, by omega, rfl⟩
  rw [← hm] at h
  refine ⟨?_, .io, ?_⟩
  · have hd : ((Ty.vec .string).codec .default E).dec = (readLen .default >>= fun n => if n = 0 then pure [] else
      Rd.alloc (E.cap .string n) >>= fun _ => Rd.readN n (Ty.string.codec .default E).dec) := rfl
    rw [hd, Rd.bind_of_ok h1, if_neg (by omega), h]
    rfl
  · have hd : ((Ty.vec .string).codec .default E).skip = (readLen .default >>= fun n =>
      Rd.repeatN n (skipBytes .default)) := rfl
    have h2 : skipBytes .default [] = .err .io := rfl
    rw [hd, Rd.bind_of_ok h1, Rd.repeatN, Rd.bind_of_err h2]

/-- An allocator that grants exactly what nine bytes justify. -/
def nineEnv : Env Empty := { demoEnv with cap := fun t n => decide (n ≤ t.perByte * 9) }

theorem nineEnv_grants : GrantsFor nineEnv.cap 9 := fun _ _ h => decide_eq_true h

theorem readN_unit : ∀ (n : Nat) (s : Bytes), Rd.readN n (pure () : Rd Unit) s = .ok (List.replicate n (), s)
  | 0, _ => rfl
  | n + 1, s => by
    rw [Rd.readN]
    simp only [Rd.pure_bind]
    rw [Rd.bind_of_ok (readN_unit n s)]
    rfl

/-- C94 is false for elements that take no bytes: nine bytes are a valid `Vec<()>` (or `Vec<Box<()>>`) of
`2^64 - 1` elements. -/
theorem C94_weightless_false :
    ∃ s v, s.length = 9 ∧ ((Ty.vec (.wrap .unit)).codec .default nineEnv.unlimited).dec s = .ok (v, []) ∧
      v.length = 2 ^ 64 - 1 ∧ ((Ty.vec (.wrap .unit)).codec .default nineEnv).dec s = .panic := by
  obtain ⟨m, hm, h1⟩ : ∃ m, m + 1 = 2 ^ 64 - 1 ∧
      readLen .default [253, 255, 255, 255, 255, 255, 255, 255, 255] = .ok (m + 1, []) :=
    ⟨2 ^ 64 - 2, by omega, rfl⟩
  refine ⟨[253, 255, 255, 255, 255, 255, 255, 255, 255], List.replicate (m + 1) (), rfl, ?_,
    by rw [List.length_replicate, hm], ?_⟩
  · have hd : ((Ty.vec (.wrap .unit)).codec .default nineEnv.unlimited).dec = (readLen .default >>= fun n =>
      if n = 0 then pure [] else Rd.readN n (pure ())) := rfl
    rw [hd, Rd.bind_of_ok h1, if_neg (by omega)]
    exact readN_unit (m + 1) []
  · have h : nineEnv.cap (.wrap .unit) (m + 1) = false := by simp [nineEnv, Ty.perByte]; omega
    have hd : ((Ty.vec (.wrap .unit)).codec .default nineEnv).dec = (readLen .default >>= fun n =>
      if n = 0 then pure [] else Rd.alloc (nineEnv.cap (.wrap .unit) n) >>= fun _ => Rd.readN n (pure ())) := rfl
    rw [hd, Rd.bind_of_ok h1, if_neg (by omega), h]
    rfl

/-- Five strings in six bytes, under an allocator that grants nine elements at most. -/
example : ((Ty.vec .string).codec .default nineEnv).dec [5, 0, 0, 0, 0, 0] = .ok (["", "", "", "", ""], []) := by
  refine C94_valid_input_partial _ _ (fun i => nomatch i) _ rfl _ _ ?_ _ ?_
  · intro t n h
    exact decide_eq_true (Nat.le_trans h (Nat.mul_le_mul_left _ (by simp)))
  · decide +kernel

/-- Seventy packed `bool`s in ten bytes. -/
example : demoTy.solid = true ∧ ((Ty.vec .bool).codec .default nineEnv).dec (70 :: List.replicate 9 255) =
    .ok (List.replicate 70 true, []) := ⟨rfl, by decide +kernel⟩

/-- C95: skipping requests no memory: whatever the allocator refuses, skipping any input gives the same result.
Missing for the full statement: `PathBuf`, whose skip decodes it (`C95_skip_false`). -/
theorem C95_skip_partial (cfg : Cfg) (E : Env ι) (t : Ty ι) (ht : t.pathFree = true) (s : Bytes) :
    (t.codec cfg E).skip s = (t.codec cfg E.unlimited).skip s ∧
    (t.codec cfg E).skipS s = (t.codec cfg E.unlimited).skipS s :=
  have h := Ty.codec_skipEq (E := E) (c' := E.extC) cfg (fun _ => ⟨rfl, rfl⟩) t ht
  ⟨congrFun (congrArg Rd.run h.skip) s, congrFun (congrArg Rd.run h.skipS) s⟩

/-- C95 for programs of derived types. -/
theorem C95_program_partial [DecidableEq ι] (cfg : Cfg) (P : Program ι) (I : Impls P.kind)
    (hP : ∀ i, ∀ t ∈ (P.body i).types, t.pathFree = true) (n : Nat) (i : ι) (s : Bytes) :
    (P.codec cfg I n i).skip s = (P.codec cfg I.unlimited n i).skip s ∧
    (P.codec cfg I n i).skipS s = (P.codec cfg I.unlimited n i).skipS s :=
  have h := Program.codec_skipEq cfg P I hP n i
  ⟨congrFun (congrArg Rd.run h.skip) s, congrFun (congrArg Rd.run h.skipS) s⟩

/-- C95 is false for `PathBuf`: skipping asks for a buffer as long as the input says. -/
theorem C95_skip_false (E : Env ι) (h : E.cap (.int .u8) (2 ^ 64 - 1) = false) :
    ((Ty.path).codec .default E).skip [253, 255, 255, 255, 255, 255, 255, 255, 255] = .panic := by
  obtain ⟨m, hm, h1⟩ : ∃ m, m + 1 = 2 ^ 64 - 1 ∧
      readLen .default [253, 255, 255, 255, 255, 255, 255, 255, 255] = .ok (m + 1, []) :=
    ⟨2 ^ 64 - 2, by omega, rfl⟩
  simp only [Ty.codec, pathC, Codec.mirror, stringC, readBytes, Rd.discard, Rd.bind_assoc]
  rw [← hm] at h
  rw [Rd.bind_of_ok h1, if_neg (by omega), h]
  rfl

/-- Skipping hostile input under an allocator that refuses everything. -/
example : ((Ty.vec (.pair .string (.vec .bool))).codec .default { demoEnv with cap := fun _ _ => false }).skip
    [2, 1, 97, 9, 255, 255, 0, 0] = .ok ((), []) := by
  rw [(C95_skip_partial _ _ _ rfl _).1]
  decide +kernel

example : (∀ i, ∀ t ∈ (demoProgram.body i).types, t.solid = true) ∧
    (∀ i, ∀ t ∈ (demoProgram.body i).types, t.pathFree = true) := by
  constructor <;> intro i <;> cases i <;> decide

end

end Revision
