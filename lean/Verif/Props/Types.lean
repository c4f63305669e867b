import Verif.Proofs.Below
import Verif.Spec.Seq
import Verif.Spec.Demo

/-!
# Properties C05–C13: laws of every supported type

`ι` indexes whatever further types the environment supplies (derived or third-party types).
-/

namespace Revision

variable {ι : Type} (cfg : Cfg) (E : Env ι)

/-- A value of a nested type, used as a non-trivial instance throughout. -/
abbrev demoTy : Ty Empty := .btreeMap (.int .i16) (.vec (.option .string))
abbrev demoVal : demoTy.denote demoEnv.X :=
  [(BitVec.ofInt 16 (-3), [some "é", none]), (300, [])]

theorem demo_wf : demoTy.WF demoEnv demoVal := by
  refine ⟨?_, ?_⟩
  · intro e _
    exact ⟨trivial, fun _ _ _ _ => trivial⟩
  · simp only [demoVal, List.pairwise_cons, List.mem_singleton, forall_eq]
    exact ⟨by decide, by simp⟩

theorem demo_fits : demoTy.Fits demoEnv demoVal := by
  refine ⟨by decide, by decide, ?_⟩
  intro e he
  simp only [demoVal, List.mem_cons, List.not_mem_nil, or_false] at he
  rcases he with rfl | rfl
  · refine ⟨trivial, by decide, by decide, ?_⟩
    intro a ha
    simp only [List.mem_cons, List.not_mem_nil, or_false] at ha
    rcases ha with rfl | rfl
    · rintro a ⟨⟩
      exact ⟨by decide, by decide⟩
    · rintro a ⟨⟩
  · exact ⟨trivial, by decide, by decide, by intro a ha; simp at ha⟩

/-- C05: `from_slice(to_vec(v)) = v`. -/
theorem C05_round_trip (hE : E.Lawful) (t : Ty ι) (v : t.denote E.X) (hw : t.WF E v)
    (hf : t.Fits E v) :
    ∃ b, (t.codec cfg E).toVec v = .ok b ∧ (t.codec cfg E).fromSlice b = .ok v := by
  have hv := t.valid_of cfg hE v hw hf
  obtain ⟨b, hb⟩ := (t.codec_lawful cfg hE).enc_ok v hv
  refine ⟨b, hb, ?_⟩
  have := (t.codec_lawful cfg hE).round_trip v b hv hb []
  rw [List.append_nil] at this
  simp [Codec.fromSlice, this]

example : ∃ b, (demoTy.codec .default demoEnv).toVec demoVal = .ok b ∧
    (demoTy.codec .default demoEnv).fromSlice b = .ok demoVal :=
  C05_round_trip _ _ demoEnv_lawful _ _ demo_wf demo_fits

/-- C05: a path that is not UTF-8 cannot be written: the serialiser answers with an error rather than
writing what it could not read back. -/
theorem C05_path_refused (p : Bytes) (hp : ∀ s : String, p ≠ s.toByteArray.data.toList) :
    ((Ty.path : Ty ι).codec cfg E).toVec p = .err .invalidPath := by
  show (match fromUtf8 p with | .ok _ => Res.ok (encBytes cfg p) | _ => .err .invalidPath) = _
  cases h : fromUtf8 p with
  | ok s => exact absurd (strBytes_of_fromUtf8 h).symm (hp s)
  | err e => rfl
  | panic => rfl

example (s : String) : ([255] : Bytes) ≠ s.toByteArray.data.toList := by
  intro h
  have h1 := fromUtf8_strBytes s
  unfold strBytes at h1
  rw [← h] at h1
  have h2 : fromUtf8 [255] = .err .utf8 := by decide
  rw [h2] at h1
  cases h1

/-- C06: what follows a value is left untouched. -/
theorem C06_framing (hE : E.Lawful) (t : Ty ι) (v : t.denote E.X) (hw : t.WF E v)
    (hf : t.Fits E v) :
    ∃ b, (t.codec cfg E).toVec v = .ok b ∧
      ∀ rest, (t.codec cfg E).dec (b ++ rest) = .ok (v, rest) := by
  have hv := t.valid_of cfg hE v hw hf
  obtain ⟨b, hb⟩ := (t.codec_lawful cfg hE).enc_ok v hv
  exact ⟨b, hb, (t.codec_lawful cfg hE).round_trip v b hv hb⟩

/-- C06: values of any types written back to back are read back in order, and the bytes after
them are left alone. -/
theorem C06_back_to_back (hE : E.Lawful) (l : List ((t : Ty ι) × t.denote E.X))
    (h : ∀ x ∈ l, x.1.WF E x.2 ∧ x.1.Fits E x.2) :
    ∃ b, writeAll cfg E l = .ok b ∧
      ∀ rest, readAll cfg E (l.map Sigma.fst) (b ++ rest) = .ok (l, rest) := by
  induction l with
  | nil => exact ⟨[], rfl, fun rest => rfl⟩
  | cons x l ih =>
    obtain ⟨t, v⟩ := x
    obtain ⟨b, hb, hd⟩ := C06_framing cfg E hE t v (h ⟨t, v⟩ (by simp)).1 (h ⟨t, v⟩ (by simp)).2
    obtain ⟨bs, hbs, hds⟩ := ih fun x hx => h x (by simp [hx])
    refine ⟨b ++ bs, ?_, fun rest => ?_⟩
    · simp only [Codec.toVec] at hb
      simp [writeAll, hb, hbs]
    · simp only [List.map_cons, readAll]
      rw [List.append_assoc, Rd.bind_of_ok (hd _), Rd.bind_of_ok (hds _)]
      rfl

example : ∃ b, writeAll .default demoEnv [⟨demoTy, demoVal⟩, ⟨.int .u8, 7⟩] = .ok b ∧
    ∀ rest, readAll .default demoEnv [demoTy, .int .u8] (b ++ rest)
      = .ok ([⟨demoTy, demoVal⟩, ⟨.int .u8, 7⟩], rest) := by
  refine C06_back_to_back _ _ demoEnv_lawful [⟨demoTy, demoVal⟩, ⟨.int .u8, 7⟩] ?_
  intro x hx
  simp only [List.mem_cons, List.not_mem_nil, or_false] at hx
  rcases hx with rfl | rfl
  · exact ⟨demo_wf, demo_fits⟩
  · exact ⟨trivial, trivial⟩

/-- C07: if the serialised form of one value is a prefix of another's, they are the same value
and the same bytes.  (Distinct values therefore have distinct, prefix-incomparable forms.) -/
theorem C07_injective_prefix_free (hE : E.Lawful) (t : Ty ι) (v w : t.denote E.X)
    (hv : t.WF E v) (hvf : t.Fits E v) (hw : t.WF E w) (hwf : t.Fits E w) (b ext : Bytes)
    (h1 : (t.codec cfg E).toVec v = .ok b) (h2 : (t.codec cfg E).toVec w = .ok (b ++ ext)) :
    v = w ∧ ext = [] := by
  have hl := t.codec_lawful cfg hE
  have e1 := hl.round_trip v b (t.valid_of cfg hE v hv hvf) h1 ext
  have e2 := hl.round_trip w _ (t.valid_of cfg hE w hw hwf) h2 []
  rw [List.append_nil, e1] at e2
  simpa using e2

example (w : demoTy.denote demoEnv.X) (hw : demoTy.WF demoEnv w) (hwf : demoTy.Fits demoEnv w) (b ext : Bytes)
    (h1 : (demoTy.codec .default demoEnv).toVec demoVal = .ok b)
    (h2 : (demoTy.codec .default demoEnv).toVec w = .ok (b ++ ext)) : demoVal = w ∧ ext = [] :=
  C07_injective_prefix_free .default demoEnv demoEnv_lawful demoTy demoVal w demo_wf demo_fits hw hwf b ext h1 h2

example : ∃ v w : demoTy.denote demoEnv.X, v ≠ w ∧ demoTy.WF demoEnv v ∧ demoTy.Fits demoEnv v ∧
    demoTy.WF demoEnv w ∧ demoTy.Fits demoEnv w :=
  ⟨demoVal, [], by simp [demoVal], demo_wf, demo_fits, ⟨by simp, by simp⟩,
    ⟨by decide, by decide, by simp⟩⟩

/-- C08: wherever decoding succeeds, `skip_revisioned`, `skip_revisioned_slice` and `skip_slice`
succeed and stop at the same place. -/
theorem C08_skip_follows_decode (hE : E.Lawful) (t : Ty ι) (s rest : Bytes) (v : t.denote E.X)
    (h : (t.codec cfg E).dec s = .ok (v, rest)) :
    (t.codec cfg E).skip s = .ok ((), rest) ∧ (t.codec cfg E).skipS s = .ok ((), rest) ∧
    ∃ n, (t.codec cfg E).skipSlice s = .ok n ∧ s.drop n = rest ∧ n ≤ s.length := by
  have hl := t.codec_lawful cfg hE
  obtain ⟨⟨⟩, hx⟩ := hl.skip_agree _ _ _ h
  obtain ⟨u, hu, -, -⟩ := hl.framed _ _ _ h
  refine ⟨hx, by rw [hl.skipS_eq, hx], s.length - rest.length, ?_, ?_, by omega⟩
  · simp [Codec.skipSlice, hl.skipS_eq, hx]
  · subst hu; simp

/-- Non-canonical input: the length 1 written in the two-byte form. -/
example : ((Ty.vec (.option .bool)).codec .default demoEnv).dec [251, 1, 0, 1, 1, 9]
    = .ok ([some true], [9]) := by rfl

/-- C09: `skip_check_revisioned` accepts whatever decoding accepts, stopping at the same place,
and accepts nothing that decoding answers with an error; `skip_check_slice` returns the number of
bytes it stepped over. -/
theorem C09_checked_skip_strict (hE : E.Lawful) (hx : ∀ i, (E.extC i).CheckLaw) (t : Ty ι)
    (s rest : Bytes) :
    ((∃ v, (t.codec cfg E).dec s = .ok (v, rest)) → (t.codec cfg E).check s = .ok ((), rest)) ∧
    ((t.codec cfg E).check s = .ok ((), rest) →
      ((∃ v, (t.codec cfg E).dec s = .ok (v, rest)) ∨ (t.codec cfg E).dec s = .panic) ∧
      ∃ n, (t.codec cfg E).skipCheckSlice s = .ok n ∧ s.drop n = rest ∧ n ≤ s.length) := by
  have hl := t.codec_checkLaw cfg hE hx
  refine ⟨?_, fun h => ⟨hl.strict s rest h, ?_⟩⟩
  · rintro ⟨v, h⟩
    obtain ⟨⟨⟩, h⟩ := hl.agree _ _ _ h
    exact h
  · obtain ⟨u, hu, -, -⟩ := hl.framed _ _ _ h
    refine ⟨s.length - rest.length, ?_, ?_, by omega⟩
    · simp [Codec.skipCheckSlice, h]
    · subst hu; simp

/-- C08, C09: `skip_slice` and `skip_check_slice` fail exactly as `skip_revisioned_slice` and
`skip_check_revisioned` do on the same input, with the same error. -/
theorem C09_slice_errors (t : Ty ι) (s : Bytes) :
    (∀ e, (t.codec cfg E).skipSlice s = .err e ↔ (t.codec cfg E).skipS s = .err e) ∧
    ((t.codec cfg E).skipSlice s = .panic ↔ (t.codec cfg E).skipS s = .panic) ∧
    (∀ e, (t.codec cfg E).skipCheckSlice s = .err e ↔ (t.codec cfg E).check s = .err e) ∧
    ((t.codec cfg E).skipCheckSlice s = .panic ↔ (t.codec cfg E).check s = .panic) := by
  unfold Codec.skipSlice Codec.skipCheckSlice
  refine ⟨fun e => ?_, ?_, fun e => ?_, ?_⟩
  all_goals
    first
    | cases (t.codec cfg E).skipS s <;> simp
    | cases (t.codec cfg E).check s <;> simp

example : ((Ty.vec (.option .bool)).codec .default demoEnv).skipCheckSlice [251, 1, 0, 1, 2, 9]
    = .err (.invalidBool 2) := by rfl

/-- C09, exact form: for every type without a `SystemTime` directly inside tuples, ranges and
arrays, checked skip succeeds iff decoding does.
Missing for the full statement: a bare `SystemTime`, for which it is false
(`C09_checked_skip_false`). -/
theorem C09_checked_skip_partial (hx : ∀ i, (E.extC i).Checks) (t : Ty ι)
    (ht : t.checkExact = true) (s rest : Bytes) :
    (t.codec cfg E).check s = .ok ((), rest) ↔ ∃ v, (t.codec cfg E).dec s = .ok (v, rest) :=
  t.codec_checks cfg hx ht s rest

/-- C09 is false as stated for `SystemTime`: its checked skip accepts seconds past `i64::MAX`, on
which decoding panics. -/
theorem C09_checked_skip_false :
    ∃ s, ((Ty.systemTime : Ty Empty).codec .default demoEnv).check s = .ok ((), []) ∧
      ((Ty.systemTime : Ty Empty).codec .default demoEnv).dec s = .panic :=
  ⟨[253, 255, 255, 255, 255, 255, 255, 255, 255, 0], by rfl, by rfl⟩

/-- Plain skip accepts more than decode: a string that is not UTF-8. -/
example : ((Ty.string : Ty Empty).codec .default demoEnv).skip [1, 0xff] = .ok ((), []) ∧
    ((Ty.string : Ty Empty).codec .default demoEnv).dec [1, 0xff] = .err .utf8 := by
  constructor
  · rfl
  · decide +kernel

/-- C10: decoding consumes a prefix `u` of its input and depends on nothing beyond it; `from_slice`
ignores what follows. -/
theorem C10_extension (hE : E.Lawful) (t : Ty ι) (s rest : Bytes) (v : t.denote E.X)
    (h : (t.codec cfg E).dec s = .ok (v, rest)) :
    (∃ u, s = u ++ rest ∧ ∀ other, (t.codec cfg E).dec (u ++ other) = .ok (v, other)) ∧
    ∀ more, (t.codec cfg E).dec (s ++ more) = .ok (v, rest ++ more) ∧
      (t.codec cfg E).fromSlice (s ++ more) = .ok v := by
  obtain ⟨u, hu, h2, -⟩ := (t.codec_lawful cfg hE).framed _ _ _ h
  have h3 : ∀ more, (t.codec cfg E).dec (s ++ more) = .ok (v, rest ++ more) := by
    intro more
    rw [hu, List.append_assoc, h2]
  exact ⟨⟨u, hu, h2⟩, fun more => ⟨h3 more, by simp [Codec.fromSlice, h3]⟩⟩

/-- C11: every strict prefix of a serialised value is answered with an error by decode, skip and
checked skip. -/
theorem C11_truncation (hE : E.Lawful) (hx : ∀ i, (E.extC i).CheckLaw) (t : Ty ι)
    (v : t.denote E.X) (hw : t.WF E v) (hf : t.Fits E v) (b p q : Bytes)
    (h : (t.codec cfg E).toVec v = .ok b) (hb : b = p ++ q) (hq : q ≠ []) :
    (∃ e, (t.codec cfg E).dec p = .err e) ∧ (∃ e, (t.codec cfg E).skip p = .err e) ∧
    (∃ e, (t.codec cfg E).skipS p = .err e) ∧ (∃ e, (t.codec cfg E).check p = .err e) := by
  have hl := t.codec_lawful cfg hE
  have hc := t.codec_checkLaw cfg hE hx
  have hd := hl.round_trip v b (t.valid_of cfg hE v hw hf) h []
  rw [List.append_nil] at hd
  have key : ∀ {β : Type} {m : Rd β}, m.Framed → (∃ x, m b = .ok (x, [])) → ∃ e, m p = .err e := by
    rintro β m hm ⟨x, hx⟩
    obtain ⟨u, hu, -, h3⟩ := hm _ _ _ hx
    rw [List.append_nil] at hu
    exact h3 p q (by rw [← hu, hb]) hq
  have hs := key hl.skip_framed (hl.skip_agree _ _ _ hd)
  exact ⟨key hl.framed ⟨v, hd⟩, hs, by rw [hl.skipS_eq]; exact hs,
    key hc.framed (hc.agree _ _ _ hd)⟩

example : ∀ p q, (demoTy.codec .default demoEnv).toVec demoVal = .ok (p ++ q) → q ≠ [] →
    ∃ e, (demoTy.codec .default demoEnv).dec p = .err e := fun p q h hq =>
  (C11_truncation _ _ demoEnv_lawful (fun e => nomatch e) _ _ demo_wf demo_fits _ p q h rfl hq).1

/-- C12: every decoded value is well-formed. -/
theorem C12_decoded_well_formed (hE : E.Lawful) (t : Ty ι) (s rest : Bytes) (v : t.denote E.X)
    (h : (t.codec cfg E).dec s = .ok (v, rest)) : t.WF E v :=
  t.wf_of_valid cfg v ((t.codec_lawful cfg hE).sound _ _ _ h)

/-- An adversarial map payload with one key repeated. -/
example : ((Ty.hashMap (.int .u8) .bool).codec .default demoEnv).dec [3, 9, 1, 2, 0, 9, 0]
    = .ok ([(9, false), (2, false)], []) := by decide +kernel

/-- C13: apart from refused allocations, decoding, skipping and checked skipping never panic, for
every type without `Duration` and `SystemTime`.
Missing for the full statement: those two, for which it is false (`C13_no_panic_false`). -/
theorem C13_no_panic_partial (hx : ∀ i, (E.extC i).PanicFree) (t : Ty ι)
    (ht : t.timeFree = true) (s : Bytes) :
    (t.codec cfg E.unlimited).dec s ≠ .panic ∧ (t.codec cfg E.unlimited).skip s ≠ .panic ∧
    (t.codec cfg E.unlimited).check s ≠ .panic :=
  let h := Ty.codec_panicFree (E := E.unlimited) cfg (fun _ _ => rfl) hx t ht
  ⟨h.dec s, h.skip s, h.check s⟩

/-- C13: the allocator has no other influence: decoding under a limited allocator panics or gives
what it would give under an unlimited one. -/
theorem C13_allocation_only (t : Ty ι) (s : Bytes) :
    (t.codec cfg E).dec s = .panic ∨ (t.codec cfg E).dec s = (t.codec cfg E.unlimited).dec s :=
  t.codec_below cfg E s

/-- C13 is false as stated: a `Duration` whose nanoseconds overflow the seconds panics. -/
theorem C13_no_panic_false :
    ∃ s, ((Ty.duration : Ty Empty).codec .default demoEnv.unlimited).dec s = .panic :=
  ⟨[253, 255, 255, 255, 255, 255, 255, 255, 255, 252, 0, 202, 154, 59], by rfl⟩

example : demoTy.timeFree = true ∧ demoTy.checkExact = true := ⟨rfl, rfl⟩

end Revision
