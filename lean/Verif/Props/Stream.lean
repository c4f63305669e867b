import Verif.Proofs.StreamErr
import Verif.Props.Types

/-!
# Reading from arbitrary readers, and running out of input (C81, C82, C84)
-/

namespace Revision

variable (cfg : Cfg) {ι : Type} (E : Env ι)

/-- The readers of an environment without further types. -/
def demoReaders : demoEnv.Readers where
  dec := nofun
  skip := nofun
  check := nofun
  dec_slice := nofun
  skip_slice := nofun
  check_slice := nofun

/-! ### C81: running out of input -/

/-- C81: a record cut short is reported as `Error::Io` by decoding, for every type without `Result` and
`Bound`.
Missing for the full statement: those two, for which it is false (`C81_truncated_false`). -/
theorem C81_truncated_partial (hE : E.Lawful) (R : E.Readers) (hR : R.Short (· = .io)) (t : Ty ι) (ht : t.plainErrors = true)
    (v : t.denote E.X) (hw : t.WF E v) (hf : t.Fits E v) (b p q : Bytes)
    (h : (t.codec cfg E).toVec v = .ok b) (hb : b = p ++ q) (hq : q ≠ []) :
    (t.codec cfg E).dec p = .err .io := by
  have hd := (t.codec_lawful cfg hE).round_trip v b (t.valid_of cfg hE v hw hf) h []
  rw [List.append_nil, hb, ← Ty.decP_slice cfg E R.dec R.dec_slice] at hd
  obtain ⟨e, he, rfl⟩ := Prog.short_prefix
    (Ty.decP_short (K := (· = .io)) rfl cfg E R.dec hR t (.inl ht)) p q [] v hd
    (by cases q with
      | nil => exact absurd rfl hq
      | cons _ _ => simp)
  rw [← Ty.decP_slice cfg E R.dec R.dec_slice, he]

example (p q : Bytes) (h : ((Ty.vec (.option .string)).codec .default demoEnv).toVec [some "ab", none] = .ok (p ++ q))
    (hq : q ≠ []) : ((Ty.vec (.option .string)).codec .default demoEnv).dec p = .err .io :=
  C81_truncated_partial _ _ demoEnv_lawful demoReaders nofun (.vec (.option .string)) rfl [some "ab", none]
    (by simp [Ty.WF])
    (by simp [Ty.Fits]; decide +kernel) _ p q h rfl hq

/-- C81: for all types, a record cut short is reported by decoding as `Error::Io` or
`Error::Deserialize`. -/
theorem C81_truncated_kind (hE : E.Lawful) (R : E.Readers)
    (hR : R.Short fun e => e = .io ∨ e = .deserialize) (t : Ty ι)
    (v : t.denote E.X) (hw : t.WF E v) (hf : t.Fits E v) (b p q : Bytes)
    (h : (t.codec cfg E).toVec v = .ok b) (hb : b = p ++ q) (hq : q ≠ []) :
    (t.codec cfg E).dec p = .err .io ∨ (t.codec cfg E).dec p = .err .deserialize := by
  have hd := (t.codec_lawful cfg hE).round_trip v b (t.valid_of cfg hE v hw hf) h []
  rw [List.append_nil, hb, ← Ty.decP_slice cfg E R.dec R.dec_slice] at hd
  obtain ⟨e, he, hk⟩ := Prog.short_prefix
    (Ty.decP_short (K := fun e => e = .io ∨ e = .deserialize) (.inl rfl) cfg E R.dec hR t
      (.inr (.inr rfl))) p q [] v hd
    (by cases q with
      | nil => exact absurd rfl hq
      | cons _ _ => simp)
  rw [← Ty.decP_slice cfg E R.dec R.dec_slice, he]
  rcases hk with rfl | rfl
  · exact .inl rfl
  · exact .inr rfl

example (p q : Bytes) (h : (demoTy.codec .default demoEnv).toVec demoVal = .ok (p ++ q)) (hq : q ≠ []) :
    (demoTy.codec .default demoEnv).dec p = .err .io ∨ (demoTy.codec .default demoEnv).dec p = .err .deserialize :=
  C81_truncated_kind _ _ demoEnv_lawful demoReaders nofun _ _ demo_wf demo_fits _ p q h rfl hq

/-- C81: a record cut short is reported as `Error::Io` by skipping, for every type. -/
theorem C81_truncated_skip (hE : E.Lawful) (R : E.Readers) (hR : R.SkipShort) (t : Ty ι)
    (v : t.denote E.X) (hw : t.WF E v) (hf : t.Fits E v) (b p q : Bytes)
    (h : (t.codec cfg E).toVec v = .ok b) (hb : b = p ++ q) (hq : q ≠ []) :
    (t.codec cfg E).skip p = .err .io := by
  have hl := t.codec_lawful cfg hE
  have hd := hl.round_trip v b (t.valid_of cfg hE v hw hf) h []
  rw [List.append_nil] at hd
  obtain ⟨⟨⟩, hs⟩ := hl.skip_agree _ _ _ hd
  rw [hb, ← Ty.skipP_slice cfg E R.skip R.skip_slice] at hs
  obtain ⟨e, he, rfl⟩ := Prog.short_prefix
    (Ty.skipP_short (K := (· = .io)) rfl cfg E R.skip hR t) p q [] () hs
    (by cases q with
      | nil => exact absurd rfl hq
      | cons _ _ => simp)
  rw [← Ty.skipP_slice cfg E R.skip R.skip_slice, he]

example : ∀ p q, (demoTy.codec .default demoEnv).toVec demoVal = .ok (p ++ q) → q ≠ [] →
    (demoTy.codec .default demoEnv).skip p = .err .io := fun p q h hq =>
  C81_truncated_skip _ _ demoEnv_lawful demoReaders nofun _ _ demo_wf demo_fits _ p q h rfl hq

/-- A vector of options of strings, cut inside the second string. -/
example : ((Ty.vec (.option .string)).codec .default demoEnv).dec [2, 1, 1, 97, 1, 2, 98] = .err .io ∧
    (Ty.vec (.option .string) : Ty Empty).plainErrors = true := by decide +kernel

/-- C81 is false as stated: a `Result<u8, ()>` cut before its payload is reported as
`Error::Deserialize`, as if the data were corrupt. -/
theorem C81_truncated_false :
    ((Ty.result (.int .u8) .unit).codec .default demoEnv).toVec (.ok 7) = .ok [0, 7] ∧
    ((Ty.result (.int .u8) .unit).codec .default demoEnv).dec [0] = .err .deserialize ∧
    ((Ty.bound (.int .u8)).codec .default demoEnv).dec [1] = .err .deserialize :=
  ⟨rfl, rfl, rfl⟩

/-- C81: an error other than `Error::Io` is final: no further bytes change it.
Missing for the full statement: `Result` and `Bound`, for which it is false (`C81_final_false`). -/
theorem C81_final_partial (R : E.Readers) (hR : R.Short (· = .io)) (t : Ty ι) (ht : t.plainErrors = true) (s more : Bytes)
    (e : Err) (h : (t.codec cfg E).dec s = .err e) (he : e ≠ .io) :
    (t.codec cfg E).dec (s ++ more) = .err e := by
  rw [← Ty.decP_slice cfg E R.dec R.dec_slice] at h ⊢
  exact Prog.final_err
    (Ty.decP_short (K := (· = .io)) rfl cfg E R.dec hR t (.inl ht)) s more e h he

example (more : Bytes) : ((Ty.pair .string (.option .bool)).codec .default demoEnv).dec ([1, 97, 9] ++ more) =
    .err .deserialize :=
  C81_final_partial .default demoEnv demoReaders nofun _ rfl _ more _ (by decide +kernel) (by decide)

/-- C81 is false as stated: a `Result` whose payload is still missing is answered with
`Error::Deserialize`, and with one more byte it decodes. -/
theorem C81_final_false :
    ((Ty.result (.int .u8) .unit).codec .default demoEnv).dec [0] = .err .deserialize ∧
    ((Ty.result (.int .u8) .unit).codec .default demoEnv).dec ([0] ++ [7]) = .ok (.ok 7, []) :=
  ⟨rfl, rfl⟩

/-- An invalid tag behind a complete string. -/
example : ((Ty.pair .string (.option .bool)).codec .default demoEnv).dec [1, 97, 9] = .err .deserialize
    := by decide +kernel

/-- C81: `Error::Io` always means that input is missing: with enough more bytes decoding gets past it. -/
theorem C81_io_means_short (R : E.Readers) (hR : R.Sound) (t : Ty ι) (s : Bytes) :
    ∃ more, (t.codec cfg E).dec (s ++ more) ≠ .err .io := by
  obtain ⟨more, h⟩ := Prog.more_input (Ty.decP_ioSound cfg E R.dec hR t) s
  refine ⟨more, fun he => h .io ?_ rfl⟩
  rw [Ty.decP_slice cfg E R.dec R.dec_slice]
  exact he

/-- C81: a length prefix of 3 with one byte behind it. -/
example : ((Ty.string : Ty Empty).codec .default demoEnv).dec [3, 97] = .err .io ∧
    ((Ty.string : Ty Empty).codec .default demoEnv).dec ([3, 97] ++ [98, 99]) = .ok ("abc", []) := by
  decide +kernel

/-- C81: text that is not UTF-8 is reported as `Error::Utf8Error`, whatever its length prefix and
whatever follows. -/
theorem C81_utf8 (s : Bytes) (n : Nat) (payload rest : Bytes)
    (hlen : readLen cfg s = .ok (n, payload ++ rest)) (hn : payload.length = n)
    (hcap : E.cap (.int .u8) n = true)
    (hbad : String.fromUTF8? ⟨payload.toArray⟩ = none) :
    ((Ty.string : Ty ι).codec cfg E).dec s = .err .utf8 := by
  have h0 : n ≠ 0 := by
    rintro rfl
    rw [List.length_eq_zero_iff] at hn
    subst hn
    exact absurd hbad (by decide +kernel)
  have hr : readBytes cfg (E.cap (.int .u8)) s = .ok (payload, rest) := by
    rw [readBytes, Rd.bind_of_ok hlen, if_neg h0, hcap, Rd.alloc_true, Rd.pure_bind]
    exact Rd.readExact_append _ _ _ hn
  change (stringC cfg (E.cap (.int .u8))).dec s = _
  rw [stringC]
  simp only
  rw [Rd.bind_of_ok hr, fromUtf8, hbad]
  rfl

example : ((Ty.string : Ty Empty).codec .default demoEnv).dec [2, 97, 255, 4] = .err .utf8 :=
  C81_utf8 _ _ _ 2 [97, 255] [4] rfl rfl (by decide) (by decide +kernel)

/-! ### C82: any reader -/

/-- C82: decoding from any reader, however it cuts the bytes into pieces and however often it is
interrupted, gives what decoding from a slice of the delivered bytes gives, and leaves the same bytes
unread. -/
theorem C82_decode (R : E.Readers) (buf : Nat → Nat) (t : Ty ι) :
    SameAsSlice ((t.decP cfg E R.dec).onStream buf) (t.codec cfg E).dec := by
  rw [← Ty.decP_slice cfg E R.dec R.dec_slice]
  exact Prog.onStream_slice buf _

/-- C82: the same for skipping. -/
theorem C82_skip (R : E.Readers) (buf : Nat → Nat) (t : Ty ι) :
    SameAsSlice ((t.skipP cfg E R.skip).onStream buf) (t.codec cfg E).skip := by
  rw [← Ty.skipP_slice cfg E R.skip R.skip_slice]
  exact Prog.onStream_slice buf _

/-- C82: the same for checked skipping. -/
theorem C82_check (R : E.Readers) (buf : Nat → Nat) (t : Ty ι) :
    SameAsSlice ((t.checkP cfg E R.dec R.check).onStream buf) (t.codec cfg E).check := by
  rw [← Ty.checkP_slice cfg E R.dec R.check R.dec_slice R.check_slice]
  exact Prog.onStream_slice buf _

/-- C82: two readers that deliver the same bytes give the same result, whatever their pieces and
interruptions, and whatever buffers the standard library offers them. -/
theorem C82_pieces_do_not_matter (R : E.Readers) (buf buf' : Nat → Nat) (t : Ty ι) (s s' : Stream)
    (h : s.content = s'.content) :
    (((t.decP cfg E R.dec).onStream buf s).bind fun p => .ok (p.1, Stream.content p.2)) =
      (((t.decP cfg E R.dec).onStream buf' s').bind fun p => .ok (p.1, Stream.content p.2)) := by
  have h1 := C82_decode cfg E R buf t s
  have h2 := C82_decode cfg E R buf' t s'
  rw [← h] at h2
  cases hd : (t.codec cfg E).dec s.content with
  | ok p =>
    obtain ⟨a, r⟩ := p
    rw [hd] at h1 h2
    obtain ⟨x, e1, e2⟩ := h1
    obtain ⟨y, e3, e4⟩ := h2
    rw [e1, e3]
    simp only [Res.bind, e2, e4]
  | err e =>
    rw [hd] at h1 h2
    simp only at h1 h2
    rw [h1, h2]
  | panic =>
    rw [hd] at h1 h2
    simp only at h1 h2
    rw [h1, h2]

/-- C82: a value written to a pipe is read back at the other end, whatever the pieces. -/
theorem C82_round_trip (hE : E.Lawful) (R : E.Readers) (buf : Nat → Nat) (t : Ty ι)
    (v : t.denote E.X) (hw : t.WF E v) (hf : t.Fits E v) (b more : Bytes)
    (h : (t.codec cfg E).toVec v = .ok b) (s : Stream) (hs : s.content = b ++ more) :
    ∃ s', (t.decP cfg E R.dec).onStream buf s = .ok (v, s') ∧ s'.content = more := by
  have h1 := C82_decode cfg E R buf t s
  rw [hs, (t.codec_lawful cfg hE).round_trip v b (t.valid_of cfg hE v hw hf) h more] at h1
  exact h1

/-- "abc" and the number 300, delivered in four pieces with two interruptions. -/
example : ∃ s', ((Ty.pair .string (.int .u16)).decP .default demoEnv demoReaders.dec).onStream (fun _ => 32)
      [.data [3, 97], .interrupted, .data [98, 99, 251], .data [44], .interrupted, .data [1, 5]]
    = .ok (("abc", 300#16), s') ∧ s'.content = [5] :=
  C82_round_trip .default demoEnv demoEnv_lawful demoReaders _ (.pair .string (.int .u16)) ("abc", 300#16)
    (by simp [Ty.WF]) (by simp [Ty.Fits]; decide +kernel) [3, 97, 98, 99, 251, 44, 1] [5] (by decide +kernel) _ rfl

/-- A reader that fails in the middle of the number. -/
example : ((Ty.pair .string (.int .u16)).decP .default demoEnv demoReaders.dec).onStream (fun _ => 32)
      [.data [3, 97], .data [98, 99, 251], .data [44], .failed, .data [1, 5]] = .err .io := by
  have h := C82_decode .default demoEnv demoReaders (fun _ => 32) (.pair .string (.int .u16))
    [.data [3, 97], .data [98, 99, 251], .data [44], .failed, .data [1, 5]]
  exact h

/-! ### C84: both byte orders -/

/-- C84: a bulk vector is read on a big-endian machine (element by element) exactly as on a
little-endian one (in one piece), for every input that fits the address space. -/
theorem C84_big_endian (cap : Nat → Bool) (W w : Nat) (s rest : Bytes)
    (hs : s.length < 2 ^ 64) (l : List (BitVec W)) :
    (Prog.decBulkBE cfg cap W w).onSlice s = .ok (l, rest) ↔
      (Prog.decBulk cfg cap W w).onSlice s = .ok (l, rest) := by
  rw [Prog.onSlice_decBulk]
  simp only [Prog.decBulkBE, bulkC, Prog.onSlice_bind, Prog.onSlice_readLen, Prog.onSlice_ite,
    Prog.onSlice_alloc, Prog.onSlice_readN, Prog.onSlice_readLE]
  rw [Rd.bind_run, Rd.bind_run]
  cases h : readLen cfg s with
  | err e => simp
  | panic => simp
  | ok p =>
    obtain ⟨n, r⟩ := p
    simp only
    by_cases h0 : n = 0
    · simp [h0]
    · rw [if_neg h0, if_neg h0]
      have hr : r.length ≤ s.length := readLen_length cfg h
      by_cases hc : cap n = true
      · by_cases hm : n * w < 2 ^ 64
        · rw [if_pos hm, hc, Rd.alloc_true, Rd.pure_bind, Rd.pure_bind, readN_readLE W w n r]
        · rw [if_neg hm, hc, Rd.alloc_true, Rd.pure_bind, readN_readLE W w n r]
          have : ¬ n * w ≤ r.length := by omega
          simp [Rd.bind_run, Rd.readExact, this]
      · rw [Bool.not_eq_true] at hc
        have ha : Rd.alloc (cap n) = Rd.panic := by rw [hc]; rfl
        rw [ha]
        split <;> simp [Rd.bind_run]

example : (Prog.decBulkBE .default (fun n => decide (n < 100)) 16 2).onSlice [2, 1, 2, 3, 4, 9]
    = .ok ([0x0201#16, 0x0403#16], [9]) := by decide +kernel

end Revision
