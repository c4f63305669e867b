import Verif.Proofs.DeriveIoErr
import Verif.Props.Program
import Verif.Props.Sink
import Verif.Props.Stream

/-!
# Derived types on arbitrary readers and writers (C90, C91, C92, C93)

`(P.io cfg I n i).dec.onStream buf s` is `T::deserialize_revisioned(&mut s)` for the derived type `i` of the
program `P`, `((P.io cfg I n i).wr v).run w` is `v.serialize_revisioned(&mut w)`.
-/

namespace Revision

variable {ι : Type} [DecidableEq ι] (cfg : Cfg) (P : Program ι) (I : Impls P.kind)

/-! ### C90: any reader -/

/-- C90: a derived type is decoded from any reader, however it cuts the bytes into pieces and however often
it is interrupted, as from a slice of the delivered bytes, and leaves the same bytes unread. -/
theorem C90_decode (buf : Nat → Nat) (n : Nat) (i : ι) :
    SameAsSlice ((P.io cfg I n i).dec.onStream buf) (P.codec cfg I n i).dec := by
  rw [← (P.io_models cfg I n i).dec]
  exact Prog.onStream_slice buf _

/-- C90: the same for skipping. -/
theorem C90_skip (buf : Nat → Nat) (n : Nat) (i : ι) :
    SameAsSlice ((P.io cfg I n i).skip.onStream buf) (P.codec cfg I n i).skip := by
  rw [← (P.io_models cfg I n i).skip]
  exact Prog.onStream_slice buf _

/-- C90: the same for checked skipping. -/
theorem C90_check (buf : Nat → Nat) (n : Nat) (i : ι) :
    SameAsSlice ((P.io cfg I n i).check.onStream buf) (P.codec cfg I n i).check := by
  rw [← (P.io_models cfg I n i).check]
  exact Prog.onStream_slice buf _

/-- C90: the same for the supported types with derived types in them, such as `Vec<Option<T>>`. -/
theorem C90_decode_in (buf : Nat → Nat) (n : Nat) (t : Ty ι) :
    SameAsSlice ((t.decP cfg (I.env n (P.codec cfg I n)) fun i => (P.io cfg I n i).dec).onStream buf)
      (t.codec cfg (I.env n (P.codec cfg I n))).dec :=
  C82_decode cfg _ (P.readers cfg I n) buf t

/-- The tree of the demonstration program in four pieces with an interruption, followed by another byte. -/
example : ∃ s', (demoProgram.io .default demoImpls 3 .tree).dec.onStream (fun _ => 32)
      [.data [2, 1], .data [2, 2, 0], .interrupted, .data [5, 0, 2], .data [1, 0, 77]] = .ok (demoTreeNew, s') ∧
    s'.content = [77] := by
  have h := C90_decode .default demoProgram demoImpls (fun _ => 32) 3 .tree
    [.data [2, 1], .data [2, 2, 0], .interrupted, .data [5, 0, 2], .data [1, 0, 77]]
  exact h

/-- An optimised document, skipped on a reader that delivers single bytes and then fails. -/
example : (demoProgram.io .default demoImpls 4 .doc).skip.onStream (fun _ => 32)
      [.data [1], .data [23], .data [0], .data [0], .failed, .data [0]] = .err .io := by
  have h := C90_skip .default demoProgram demoImpls (fun _ => 32) 4 .doc
    [.data [1], .data [23], .data [0], .data [0], .failed, .data [0]]
  exact h

/-! ### C91: any writer -/

/-- C91: on a `Vec<u8>` the call-by-call serialiser is the serialiser of all other properties. -/
theorem C91_to_vec (n : Nat) (i : ι) (v : Values P.kind n i) :
    (∀ b, (P.codec cfg I n i).toVec v = .ok b → (((P.io cfg I n i).wr v).run .vec).1 = .ok () ∧
      (((P.io cfg I n i).wr v).run .vec).2.1 = b) ∧
    (∀ e, (P.codec cfg I n i).toVec v = .err e → (((P.io cfg I n i).wr v).run .vec).1 = .err e) ∧
    ((P.codec cfg I n i).toVec v = .panic → (((P.io cfg I n i).wr v).run .vec).1 = .panic) := by
  have h := (P.io_models cfg I n i).enc v
  rw [(Wr.run_vec _).1, (Wr.run_vec _).2]
  have ht : (P.codec cfg I n i).toVec v = (P.codec cfg I n i).enc v := rfl
  rw [ht, ← h, Wr.toRes]
  cases ((P.io cfg I n i).wr v).fin with
  | ok u => cases u; simp
  | err e => simp
  | panic => simp

theorem Program.any_writer {n : Nat} {i : ι} {v : Values P.kind n i} (ha : ((P.io cfg I n i).wr v).AllW) (b : Bytes)
    (h : (P.codec cfg I n i).toVec v = .ok b) (w : Sink) :
    ((((P.io cfg I n i).wr v).run w).1 = .ok () ∧ (((P.io cfg I n i).wr v).run w).2.1 = b) ∨
    ((((P.io cfg I n i).wr v).run w).1 = .err .io ∧
      ∃ c, c ≠ [] ∧ (((P.io cfg I n i).wr v).run w).2.1 ++ c = b) := by
  obtain ⟨h1, h2⟩ := (C91_to_vec cfg P I n i v).1 b h
  rw [(Wr.run_vec _).1] at h1
  rw [(Wr.run_vec _).2] at h2
  subst h2
  rw [Wr.run_eq]
  rcases runOps_spec _ ha w with ⟨h3, h4⟩ | ⟨h3, h4⟩
  · rw [h3]; exact .inl ⟨h1, h4⟩
  · rw [h3]; exact .inr ⟨rfl, h4⟩

/-- C91: for every type whose current encoding is optimised, whatever its fields (`bool` included): if
serialising reports success, the writer has accepted exactly the bytes of `to_vec`; if it reports an error, a
proper prefix of them; whatever the writer does. -/
theorem C91_any_writer_optimised (n : Nat) (i : ι) (ho : (lastEntry (P.history i)).optimised = true)
    (v : Values P.kind n i) (b : Bytes) (h : (P.codec cfg I n i).toVec v = .ok b) (w : Sink) :
    ((((P.io cfg I n i).wr v).run w).1 = .ok () ∧ (((P.io cfg I n i).wr v).run w).2.1 = b) ∨
    ((((P.io cfg I n i).wr v).run w).1 = .err .io ∧
      ∃ c, c ≠ [] ∧ (((P.io cfg I n i).wr v).run w).2.1 ++ c = b) :=
  P.any_writer cfg I (P.io_all_optimised cfg I n i ho v) b h w

/-- C91: the same for legacy types, if no field they are written with writes a single `bool`.
Missing for the full statement: `bool` fields at legacy revisions, for which it is false
(`C91_legacy_bool_false`). -/
theorem C91_any_writer_partial (hP : P.BoolFree cfg) (n : Nat) (i : ι)
    (v : Values P.kind n i) (b : Bytes) (h : (P.codec cfg I n i).toVec v = .ok b) (w : Sink) :
    ((((P.io cfg I n i).wr v).run w).1 = .ok () ∧ (((P.io cfg I n i).wr v).run w).2.1 = b) ∨
    ((((P.io cfg I n i).wr v).run w).1 = .err .io ∧
      ∃ c, c ≠ [] ∧ (((P.io cfg I n i).wr v).run w).2.1 ++ c = b) :=
  P.any_writer cfg I (P.io_all cfg I hP n i v) b h w

/-- C91: on a writer whose every `write` call accepts at least one byte serialising any derived type
succeeds with the bytes of `to_vec`. -/
theorem C91_steady (n : Nat) (i : ι) (v : Values P.kind n i) (b : Bytes)
    (h : (P.codec cfg I n i).toVec v = .ok b) (w : Sink) (hw : w.Steady) :
    (((P.io cfg I n i).wr v).run w).1 = .ok () ∧ (((P.io cfg I n i).wr v).run w).2.1 = b := by
  obtain ⟨h1, h2⟩ := (C91_to_vec cfg P I n i v).1 b h
  rw [(Wr.run_vec _).1] at h1
  rw [(Wr.run_vec _).2] at h2
  obtain ⟨h3, h4, _⟩ := runOps_steady _ ((P.io_models cfg I n i).small v) w hw
  rw [Wr.run_eq, h3]
  exact ⟨h1, h4.trans h2⟩

theorem Program.willing {n : Nat} {i : ι} {v : Values P.kind n i} (ha : ((P.io cfg I n i).wr v).AllW) (b : Bytes)
    (h : (P.codec cfg I n i).toVec v = .ok b) (w : Sink) (hw : w.Willing) :
    (((P.io cfg I n i).wr v).run w).1 = .ok () ∧ (((P.io cfg I n i).wr v).run w).2.1 = b := by
  obtain ⟨h1, h2⟩ := (C91_to_vec cfg P I n i v).1 b h
  rw [(Wr.run_vec _).1] at h1
  rw [(Wr.run_vec _).2] at h2
  obtain ⟨h3, h4, _⟩ := runOps_willing _ ha w hw
  rw [Wr.run_eq, h3]
  exact ⟨h1, h4.trans h2⟩

/-- C91: on a writer that makes progress and is at most interrupted, serialising a type whose current
encoding is optimised succeeds with the bytes of `to_vec`. -/
theorem C91_willing_optimised (n : Nat) (i : ι) (ho : (lastEntry (P.history i)).optimised = true)
    (v : Values P.kind n i) (b : Bytes) (h : (P.codec cfg I n i).toVec v = .ok b) (w : Sink) (hw : w.Willing) :
    (((P.io cfg I n i).wr v).run w).1 = .ok () ∧ (((P.io cfg I n i).wr v).run w).2.1 = b :=
  P.willing cfg I (P.io_all_optimised cfg I n i ho v) b h w hw

/-- C91: the same for legacy types.  Missing for the full statement: as in `C91_any_writer_partial`. -/
theorem C91_willing_partial (hP : P.BoolFree cfg) (n : Nat) (i : ι)
    (v : Values P.kind n i) (b : Bytes) (h : (P.codec cfg I n i).toVec v = .ok b) (w : Sink) (hw : w.Willing) :
    (((P.io cfg I n i).wr v).run w).1 = .ok () ∧ (((P.io cfg I n i).wr v).run w).2.1 = b :=
  P.willing cfg I (P.io_all cfg I hP n i v) b h w hw

/-- C91: when a value of a type whose current encoding is optimised cannot be serialised, the caller gets
the serialiser's error (or the writer's I/O error before it), and at most the revision and a variant tag
have reached the writer: never part of a payload. -/
theorem C91_own_error_optimised (n : Nat) (i : ι) (hd : (P.kind i).Derived)
    (ho : (lastEntry (P.history i)).optimised = true)
    (v : Values P.kind n i) (e : Err) (h : (P.codec cfg I n i).toVec v = .err e) (w : Sink) :
    ((((P.io cfg I n i).wr v).run w).1 = .err e ∨ (((P.io cfg I n i).wr v).run w).1 = .err .io) ∧
    ∃ tag, (((P.io cfg I n i).wr v).run w).2.1 <+:
      encInt cfg .u16 (BitVec.ofNat 16 (latest (P.history i))) ++ [tag] := by
  have h1 := (C91_to_vec cfg P I n i v).2.1 e h
  rw [(Wr.run_vec _).1] at h1
  have ha := P.io_all_optimised cfg I n i ho v
  obtain ⟨tag, ht⟩ := P.io_failed cfg I n i hd ho v (by rw [h1]; simp)
  rw [Wr.run_eq]
  rcases runOps_spec _ ha w with ⟨h3, h4⟩ | ⟨h3, c, _, h4⟩
  · rw [h3]
    exact ⟨.inl h1, tag, h4.symm ▸ ht⟩
  · rw [h3]
    have hp : (runOps ((P.io cfg I n i).wr v).ops w).2.1 <+: ((P.io cfg I n i).wr v).bytesOf := ⟨c, h4⟩
    exact ⟨.inr rfl, tag, hp.trans ht⟩

/-! ### A program for the examples -/

/-- ```
#[revisioned(revision(1))]
struct Plain { id: u8, flag: bool, at: SystemTime }
#[revisioned(revision(1, optimised))]
struct Opt { id: u8, flag: bool, at: SystemTime }
#[revisioned(revision(1))]
struct Tried { outcome: Result<u8, ()> }
``` -/
inductive IoType where
  | plain
  | opt
  | tried
  deriving DecidableEq

def ioFields : List (Field fun _ : IoType => Kind.struct) :=
  [⟨"id", {}, .int .u8, fun _ _ => .ok (0 : BitVec 8), fun _ _ _ v => .ok v⟩,
    ⟨"flag", {}, .bool, fun _ _ => .ok false, fun _ _ _ v => .ok v⟩,
    ⟨"at", {}, .systemTime, fun _ _ => .ok ((0 : BitVec 64), (0 : BitVec 32)), fun _ _ _ v => .ok v⟩]

def ioProgram : Program IoType where
  kind _ := .struct
  history | .opt => [⟨1, true, false⟩] | _ => [⟨1, false, false⟩]
  body
    | .tried => .struct [⟨"outcome", {}, .result (.int .u8) .unit, fun _ _ => .panic, fun _ _ _ v => .ok v⟩]
    | _ => .struct ioFields

def ioImpls : Impls ioProgram.kind where
  cap := fun _ n => decide (n ≤ 2 ^ 40)
  cmp := fun _ _ _ _ => .eq
  eq := fun _ _ _ _ => true

/-- `{ id: 7, flag: true, at: secs }` -/
def ioValue (secs : BitVec 64) : Values ioProgram.kind 1 i :=
  ([⟨.int .u8, (7 : BitVec 8)⟩, ⟨.bool, true⟩, ⟨.systemTime, (secs, (0 : BitVec 32))⟩] : List _)

/-- A type with a `bool` written optimised into a buffer that is too small: an error and a proper prefix. -/
example (m : Nat) (hm : m < 9) : (((ioProgram.io .default ioImpls 1 .opt).wr (ioValue 5)).run (.slice m)).1 = .err .io := by
  rcases C91_any_writer_optimised .default ioProgram ioImpls 1 .opt rfl (ioValue 5) [1, 4, 0, 0, 0, 7, 1, 5, 0] rfl
    (.slice m) with ⟨h, hb⟩ | ⟨h, _⟩
  · obtain ⟨h3, h4⟩ : _ ∧ _ := ⟨h, hb⟩
    have hs := runOps_slice ((ioProgram.io .default ioImpls 1 .opt).wr (ioValue 5)).ops
      (ioProgram.io_all_optimised .default ioImpls 1 .opt rfl (ioValue 5)) m
    have hl : (((ioProgram.io .default ioImpls 1 .opt).wr (ioValue 5)).ops.flatMap WOp.bytes).length = 9 := rfl
    rw [hl, if_neg (by omega)] at hs
    rw [Wr.run_eq, hs]
  · exact h

/-- A time before 1970 in an optimised struct. -/
example (w : Sink) : ∃ tag, (((ioProgram.io .default ioImpls 1 .opt).wr (ioValue (-1))).run w).2.1 <+: [1, tag] :=
  (C91_own_error_optimised .default ioProgram ioImpls 1 .opt trivial rfl (ioValue (-1)) .serialize rfl w).2

/-- C91 is false for legacy types with a `bool`: with a writer that once accepts nothing, the flag is missing
from a record that is reported as written. -/
theorem C91_legacy_bool_false :
    (ioProgram.codec .default ioImpls 1 .plain).toVec (ioValue 5) = .ok [1, 7, 1, 5, 0] ∧
    ∃ w, (((ioProgram.io .default ioImpls 1 .plain).wr (ioValue 5)).run w).1 = .ok () ∧
      (((ioProgram.io .default ioImpls 1 .plain).wr (ioValue 5)).run w).2.1 = [1, 7, 5, 0] := by
  refine ⟨rfl, ⟨[.accept 1, .accept 1, .accept 0], none⟩, ?_⟩
  have hops : (ioProgram.io .default ioImpls 1 .plain).wr (ioValue 5) =
      ⟨[.all [1], .all [7], .once [1], .all [5], .all [0]], .ok ()⟩ := rfl
  rw [hops]
  constructor <;>
    simp [Wr.run_eq, runOps, WOp.run, Sink.writeAll_step, Sink.writeAll_nil, Sink.write]

/-- C91: a legacy struct is written field by field, so when a later field cannot be serialised the earlier
ones have already been written. -/
theorem C91_legacy_own_error_false :
    (ioProgram.codec .default ioImpls 1 .plain).toVec (ioValue (-1)) = .err .serialize ∧
    ((ioProgram.io .default ioImpls 1 .plain).wr (ioValue (-1))).run .vec = (.err .serialize, [1, 7, 1], .vec) := by
  refine ⟨rfl, ?_⟩
  have hops : (ioProgram.io .default ioImpls 1 .plain).wr (ioValue (-1)) =
      ⟨[.all [1], .all [7], .once [1]], .err .serialize⟩ := rfl
  rw [hops]
  simp [Wr.run_eq, runOps, WOp.run, Sink.vec, Sink.writeAll_step, Sink.writeAll_nil, Sink.write]

/-- The demonstration program writes no `bool`. -/
theorem demoProgram_boolFree : demoProgram.BoolFree .default := by
  intro i h f hf
  cases i with
  | tree =>
    have : ((demoProgram.body .tree).fieldsAt 2).all (fun f => f.ty.boolFree .default) = true := rfl
    exact List.all_eq_true.1 this f hf
  | doc => cases h

example (w : Sink) (h : (((demoProgram.io .default demoImpls 3 .tree).wr demoTreeNew).run w).1 = .ok ()) :
    (((demoProgram.io .default demoImpls 3 .tree).wr demoTreeNew).run w).2.1 = [2, 1, 2, 2, 0, 5, 0, 2, 1, 0] := by
  rcases C91_any_writer_partial .default demoProgram demoImpls demoProgram_boolFree 3 .tree demoTreeNew _ rfl w with
    h' | h'
  · exact h'.2
  · rw [h] at h'; cases h'.1

/-! ### C92: running out of input -/

/-- C92: input that decodes, cut anywhere inside what was consumed, is reported as `Error::Io`.
Missing for the full statement: `Result` and `Bound` fields at legacy revisions, for which it is false
(`C92_truncated_false`). -/
theorem C92_truncated_partial (hP : P.PlainErrors) (n : Nat) (i : ι) (v : Values P.kind n i) (p q rest : Bytes)
    (hq : q ≠ []) (h : (P.codec cfg I n i).dec (p ++ q ++ rest) = .ok (v, rest)) :
    (P.codec cfg I n i).dec p = .err .io := by
  rw [List.append_assoc, ← (P.io_models cfg I n i).dec] at h
  obtain ⟨e, he, rfl⟩ := Prog.short_prefix (P.io_dec_short cfg I (K := (· = .io)) rfl (.inl hP) n i) p _ _ v h
    (by cases q with
      | nil => exact absurd rfl hq
      | cons _ _ => simp only [List.cons_append, List.length_cons, List.length_append]; omega)
  rw [← (P.io_models cfg I n i).dec, he]

/-- C92: for all programs it is reported as `Error::Io` or `Error::Deserialize`. -/
theorem C92_truncated_kind (n : Nat) (i : ι) (v : Values P.kind n i) (p q rest : Bytes)
    (hq : q ≠ []) (h : (P.codec cfg I n i).dec (p ++ q ++ rest) = .ok (v, rest)) :
    (P.codec cfg I n i).dec p = .err .io ∨ (P.codec cfg I n i).dec p = .err .deserialize := by
  rw [List.append_assoc, ← (P.io_models cfg I n i).dec] at h
  obtain ⟨e, he, hk⟩ := Prog.short_prefix
    (P.io_dec_short cfg I (K := fun e => e = .io ∨ e = .deserialize) (.inl rfl) (.inr (.inr rfl)) n i) p _ _ v h
    (by cases q with
      | nil => exact absurd rfl hq
      | cons _ _ => simp only [List.cons_append, List.length_cons, List.length_append]; omega)
  rw [← (P.io_models cfg I n i).dec, he]
  rcases hk with rfl | rfl
  · exact .inl rfl
  · exact .inr rfl

/-- C92: input that can be skipped, cut anywhere inside what was consumed, is reported as `Error::Io` by
skipping, for all programs. -/
theorem C92_truncated_skip (n : Nat) (i : ι) (p q rest : Bytes)
    (hq : q ≠ []) (h : (P.codec cfg I n i).skip (p ++ q ++ rest) = .ok ((), rest)) :
    (P.codec cfg I n i).skip p = .err .io := by
  rw [List.append_assoc, ← (P.io_models cfg I n i).skip] at h
  obtain ⟨e, he, rfl⟩ := Prog.short_prefix (P.io_models cfg I n i).skip_short p _ _ () h
    (by cases q with
      | nil => exact absurd rfl hq
      | cons _ _ => simp only [List.cons_append, List.length_cons, List.length_append]; omega)
  rw [← (P.io_models cfg I n i).skip, he]

/-- C92: in particular every record the program wrote, cut short, is reported as `Error::Io` by decoding
and by skipping.  Missing for the full statement: as in `C92_truncated_partial` and
`C73_round_trip_partial`. -/
theorem C92_record_cut_partial (htrans : ∀ n t, Std.TransCmp (I.cmp n t)) (hR : P.Readable cfg P.current)
    (hP : P.PlainErrors) (n : Nat) (i : ι) (v : Values P.kind n i) (hv : (P.codec cfg I n i).valid v) (p q : Bytes)
    (hq : q ≠ []) (h : (P.codec cfg I n i).toVec v = .ok (p ++ q)) :
    (P.codec cfg I n i).dec p = .err .io ∧ (P.codec cfg I n i).skip p = .err .io := by
  have hr := C73_round_trip_partial cfg P I htrans hR n i v _ hv h []
  exact ⟨C92_truncated_partial cfg P I hP n i v p q [] hq hr.1, C92_truncated_skip cfg P I n i p q [] hq hr.2.1⟩

/-- C92: an error other than `Error::Io` is final: no further bytes change it.
Missing for the full statement: as in `C92_truncated_partial`. -/
theorem C92_final_partial (hP : P.PlainErrors) (n : Nat) (i : ι) (s more : Bytes) (e : Err)
    (h : (P.codec cfg I n i).dec s = .err e) (he : e ≠ .io) :
    (P.codec cfg I n i).dec (s ++ more) = .err e := by
  rw [← (P.io_models cfg I n i).dec] at h ⊢
  exact Prog.final_err (P.io_dec_short cfg I (K := (· = .io)) rfl (.inl hP) n i) s more e h he

/-- C92: in programs without optimised revisions, `Error::Io` means that input is missing: with enough
more bytes decoding gets past it.
Missing for the full statement: optimised revisions, for which it is false
(`C92_io_means_short_false`), and user functions that themselves return `Error::Io`. -/
theorem C92_io_means_short_partial (hl : P.Legacy) (hb : ∀ i, (P.body i).NoIo) (n : Nat) (i : ι) (s : Bytes) :
    ∃ more, (P.codec cfg I n i).dec (s ++ more) ≠ .err .io := by
  obtain ⟨more, h⟩ := Prog.more_input (P.io_dec_ioSound cfg I hl hb n i) s
  refine ⟨more, fun he => h .io ?_ rfl⟩
  rw [(P.io_models cfg I n i).dec]
  exact he

/-- `#[revisioned(revision(1))] struct Name(String)` -/
def nameProgram : Program Unit where
  kind _ := .struct
  history _ := [⟨1, false, false⟩]
  body _ := .struct [⟨"field_0", {}, .string, fun _ _ => .ok "", fun _ _ _ v => .ok v⟩]

/-- A name of which one byte of three is there. -/
example (I : Impls nameProgram.kind) (n : Nat) :
    ∃ more, (nameProgram.codec .default I n ()).dec ([1, 3, 97] ++ more) ≠ .err .io :=
  C92_io_means_short_partial .default nameProgram I
    (fun _ e he => by rw [List.mem_singleton.1 he])
    (fun _ f hf => by rw [List.mem_singleton.1 hf]; exact ⟨fun _ _ => nofun, fun _ _ _ _ => nofun⟩) n () _

/-- C92 is false as stated: a legacy struct with a `Result` cut before its payload is reported as
`Error::Deserialize`, and with one more byte it decodes. -/
theorem C92_truncated_false :
    (ioProgram.codec .default ioImpls 1 .tried).dec [1, 0] = .err .deserialize ∧
    (ioProgram.codec .default ioImpls 1 .tried).dec [1, 0, 7] =
      .ok (([⟨.result (.int .u8) .unit, (.ok (7 : BitVec 8) : Except Unit (BitVec 8))⟩] : List _), []) := ⟨rfl, rfl⟩

/-- C92 is false as stated: an optimised struct whose length prefix is too small for its fields is reported
as `Error::Io` (end of file), but no further input changes that. -/
theorem C92_io_means_short_false (more : Bytes) :
    (ioProgram.codec .default ioImpls 1 .opt).dec ([1, 0, 0, 0, 0] ++ more) = .err .io := by
  have h : (ioProgram.io .default ioImpls 1 .opt).dec.onSlice ([1, 0, 0, 0, 0] ++ more) = .err .io := rfl
  rwa [(ioProgram.io_models .default ioImpls 1 .opt).dec] at h

theorem demoProgram_plainErrors : demoProgram.PlainErrors := by
  intro i e he ho f hf
  cases i with
  | tree =>
    have h1 : ((demoProgram.body .tree).fieldsAt 1).all (fun f => f.ty.plainErrors) = true := rfl
    have h2 : ((demoProgram.body .tree).fieldsAt 2).all (fun f => f.ty.plainErrors) = true := rfl
    have he : e = ⟨1, false, false⟩ ∨ e = ⟨2, false, false⟩ := by simpa [demoProgram] using he
    rcases he with rfl | rfl
    · exact List.all_eq_true.1 h1 f hf
    · exact List.all_eq_true.1 h2 f hf
  | doc =>
    have he : e = ⟨1, true, false⟩ := by simpa [demoProgram] using he
    rw [he] at ho
    cases ho

/-- Every proper prefix of the tree. -/
example (p q : Bytes) (hq : q ≠ []) (h : p ++ q = [2, 1, 2, 2, 0, 5, 0, 2, 1, 0]) :
    (demoProgram.codec .default demoImpls 3 .tree).dec p = .err .io :=
  (C92_record_cut_partial .default demoProgram demoImpls demoImpls_trans (demoProgram_readable _ (.inr rfl) rfl)
    demoProgram_plainErrors 3 .tree demoTreeNew demoTreeNew_valid p q hq (by rw [h]; rfl)).1

/-- An unknown variant is final. -/
example (more : Bytes) : (demoProgram.codec .default demoImpls 3 .tree).dec ([2, 9] ++ more) = .err .deserialize :=
  C92_final_partial .default demoProgram demoImpls demoProgram_plainErrors 3 .tree [2, 9] more _ rfl (by simp)

/-! ### C93: through a pipe -/

/-- C93: a value written to a writer whose every call accepts something, and read from any reader that
delivers the accepted bytes and more, comes back with the rest unread; whatever the pieces on either side.
Missing for the full statement: the declarations `C73_round_trip_partial` excludes. -/
theorem C93_pipe_partial (htrans : ∀ n t, Std.TransCmp (I.cmp n t)) (hR : P.Readable cfg P.current)
    (n : Nat) (i : ι) (v : Values P.kind n i) (hv : (P.codec cfg I n i).valid v)
    (hok : ∃ b, (P.codec cfg I n i).toVec v = .ok b) (w : Sink) (hw : w.Steady)
    (buf : Nat → Nat) (s : Stream) (more : Bytes)
    (hs : s.content = (((P.io cfg I n i).wr v).run w).2.1 ++ more) :
    (((P.io cfg I n i).wr v).run w).1 = .ok () ∧
    (∃ s', (P.io cfg I n i).dec.onStream buf s = .ok (v, s') ∧ s'.content = more) ∧
    (∃ s', (P.io cfg I n i).skip.onStream buf s = .ok ((), s') ∧ s'.content = more) := by
  obtain ⟨b, hb⟩ := hok
  obtain ⟨h1, h2⟩ := C91_steady cfg P I n i v b hb w hw
  rw [h2] at hs
  have hr := C73_round_trip_partial cfg P I htrans hR n i v b hv hb more
  refine ⟨h1, ?_, ?_⟩
  · have h := C90_decode cfg P I buf n i s
    rw [hs, hr.1] at h
    exact h
  · have h := C90_skip cfg P I buf n i s
    rw [hs, hr.2.1] at h
    exact h

/-- C93: the same when the writing program is an older version of the reading one: the reader gets the
migrated value, or an error if a migration is refused, and can skip in either case.
Missing for the full statement: the declarations `C74_nested_migration_partial` excludes. -/
theorem C93_pipe_migration_partial (I' : Impls P.kind) (r : ι → Nat) (hP : P.Readable cfg r)
    (hcap : ∀ t k, I.cap t k = true → I'.cap t k = true) (n m : Nat) (hnm : n ≤ m) (i : ι)
    (v : Values P.kind n i) (hv : ((P.asOf r).codec cfg I n i).valid v)
    (hok : ∃ b, ((P.asOf r).codec cfg I n i).toVec v = .ok b) (w : Sink) (hw : w.Steady)
    (buf : Nat → Nat) (s : Stream) (more : Bytes)
    (hs : s.content = ((((P.asOf r).io cfg I n i).wr v).run w).2.1 ++ more) :
    ((((P.asOf r).io cfg I n i).wr v).run w).1 = .ok () ∧
    (∀ v', P.migrate cfg I I' r n m i v = some v' →
      ∃ s', (P.io cfg I' m i).dec.onStream buf s = .ok (v', s') ∧ s'.content = more) ∧
    (P.migrate cfg I I' r n m i v = none → ((P.io cfg I' m i).dec.onStream buf s).ok? = none) ∧
    (∃ s', (P.io cfg I' m i).skip.onStream buf s = .ok ((), s') ∧ s'.content = more) := by
  obtain ⟨b, hb⟩ := hok
  obtain ⟨h1, h2⟩ := C91_steady cfg (P.asOf r) I n i v b hb w hw
  rw [h2] at hs
  have hr := C74_nested_migration_partial cfg P I I' r hP hcap n m hnm i v b hv hb more
  have h := C90_decode cfg P I' buf m i s
  rw [hs] at h
  refine ⟨h1, fun v' hm => ?_, fun hm => ?_, ?_⟩
  · have hd := hr.1
    rw [hm] at hd
    cases hx : (P.codec cfg I' m i).dec (b ++ more) <;> rw [hx] at hd h <;> cases hd
    exact h
  · have hd := hr.1
    rw [hm] at hd
    cases hx : (P.codec cfg I' m i).dec (b ++ more) <;> rw [hx] at hd h
    · cases hd
    · simp only at h; rw [h]; rfl
    · simp only at h; rw [h]; rfl
  · have h := C90_skip cfg P I' buf m i s
    rw [hs, hr.2.1] at h
    exact h

/-- The old tree through a pipe that takes one byte at a time, then two, and delivers them in its own
pieces. -/
example : ∃ s', (demoProgram.io .default demoImpls 3 .tree).dec.onStream (fun _ => 32)
      [.data [1, 1, 2], .interrupted, .data [1, 0, 5, 1], .data [1, 0, 8]] = .ok (demoTreeNew, s') ∧
    s'.content = [8] := by
  have hb : ((demoProgram.asOf demoOld).codec .default demoImpls 3 .tree).toVec demoTree =
    .ok [1, 1, 2, 1, 0, 5, 1, 1, 0] := rfl
  have hw : Sink.Steady ⟨[.accept 1, .accept 2], none⟩ := ⟨rfl, by simp⟩
  refine (C93_pipe_migration_partial .default demoProgram demoImpls demoImpls demoOld
    (demoProgram_readable _ (.inl rfl) rfl) (fun _ _ h => h) 3 3 (Nat.le_refl 3) .tree demoTree demoTree_valid ⟨_, hb⟩
    ⟨[.accept 1, .accept 2], none⟩ hw (fun _ => 32)
    [.data [1, 1, 2], .interrupted, .data [1, 0, 5, 1], .data [1, 0, 8]] [8] ?_).2.1 demoTreeNew rfl
  rw [(C91_steady .default (demoProgram.asOf demoOld) demoImpls 3 .tree demoTree _ hb _ hw).2]
  rfl

/-- The new one, in the same way. -/
example (w : Sink) (hw : w.Steady) (s : Stream)
    (hs : s.content = (((demoProgram.io .default demoImpls 3 .tree).wr demoTreeNew).run w).2.1) :
    ∃ s', (demoProgram.io .default demoImpls 3 .tree).dec.onStream (fun _ => 1) s = .ok (demoTreeNew, s') ∧
      s'.content = [] :=
  (C93_pipe_partial .default demoProgram demoImpls demoImpls_trans (demoProgram_readable _ (.inr rfl) rfl) 3 .tree
    demoTreeNew demoTreeNew_valid ⟨_, rfl⟩ w hw (fun _ => 1) s [] (by rw [hs, List.append_nil])).2.1

end Revision
