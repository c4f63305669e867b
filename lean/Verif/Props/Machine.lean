import Verif.Proofs.MachineWalk
import Verif.Proofs.MachineIndexed
import Verif.Props.Program

/-!
# C129, C130: debug and release builds, and machines of another width

`Machine` is the width of `usize` and whether arithmetic is checked for overflow; `host` is a 64-bit debug build,
`release` a 64-bit release build, `small` a 32-bit machine.
-/

namespace Revision

open Machine

/-! ### C130: the rest of the model is about a 64-bit debug build -/

/-- The model of all other properties is `Machine` at 64 bits with overflow checks. -/
theorem C130_host {ι : Type} [DecidableEq ι] (cfg : Cfg) :
    (∀ (E : Env ι) (t : Ty ι), host.codec cfg E t = t.codec cfg E) ∧
    (∀ (P : Program ι) (I : Impls P.kind) (n : Nat) (i : ι), host.program cfg P I n i = P.codec cfg I n i) ∧
    (∀ p v, host.mapWalker p v = IndexedMapWalker.fromPayloadInner p v) ∧
    (∀ p v, host.seqWalker p v = IndexedSeqWalker.fromPayloadInner p v) :=
  ⟨fun _ t => codec_host rfl t, fun P I n i => program_host rfl cfg P I (.inl rfl) n i,
    fun p v => mapWalker_host rfl rfl p v, fun p v => seqWalker_host rfl rfl p v⟩

/-- What a program writes does not depend on the machine or the build. -/
theorem C130_bytes {ι : Type} [DecidableEq ι] (M M' : Machine) (cfg : Cfg) (P : Program ι) (I : Impls P.kind) (n : Nat)
    (i : ι) (v : Values P.kind n i) : (M.program cfg P I n i).enc v = (M'.program cfg P I n i).enc v := by
  rw [program_enc M, program_enc M']

/-- A value the machine `M` can hold, written on a machine of any width, is read back on `M`, and skipped, and
checked, and what follows is left.

Missing from the full property: values `M` cannot hold are not always refused (`C130_usize_false`,
`C130_length_false`). -/
theorem C130_exchange_partial {ι : Type} [DecidableEq ι] (M W : Machine) (h32 : 32 ≤ M.bits) (hM : M.bits ≤ 64)
    (cfg : Cfg) (P : Program ι) (I : Impls P.kind) (htrans : ∀ n t, Std.TransCmp (I.cmp n t))
    (hP : P.Readable cfg P.current) (n : Nat) (i : ι) (v : Values P.kind n i) (b : Bytes)
    (hv : (M.program cfg P I n i).valid v) (hb : (W.program cfg P I n i).enc v = .ok b) (t : Bytes) :
    (M.program cfg P I n i).dec (b ++ t) = .ok (v, t) ∧
      (M.program cfg P I n i).skip (b ++ t) = .ok ((), t) ∧
      (M.program cfg P I n i).skipS (b ++ t) = .ok ((), t) ∧
      (M.program cfg P I n i).check (b ++ t) = .ok ((), t) := by
  have h := program_faithful h32 hM cfg P I htrans hP n i
  rw [C130_bytes W M] at hb
  exact ⟨h.round_trip v b hv hb t, h.skip_after v b hv hb t, h.skipS_after v b hv hb t, h.check_after v b hv hb t⟩

/-- The same of the supported types by themselves, on machines of any width up to 64 bits. -/
theorem C130_types_partial {ι : Type} (M W : Machine) (h1 : 1 ≤ M.bits) (hM : M.bits ≤ 64) (cfg : Cfg) (E : Env ι)
    (hx : ∀ i, (E.extC i).Faithful) (ty : Ty ι) (v : ty.denote E.X) (b : Bytes)
    (hv : (M.codec cfg E ty).valid v) (hb : (W.codec cfg E ty).enc v = .ok b) (t : Bytes) :
    (M.codec cfg E ty).dec (b ++ t) = .ok (v, t) ∧
      (M.codec cfg E ty).skip (b ++ t) = .ok ((), t) ∧
      (M.codec cfg E ty).skipS (b ++ t) = .ok ((), t) ∧
      (M.codec cfg E ty).check (b ++ t) = .ok ((), t) := by
  have h := codec_faithful (cfg := cfg) h1 hM hx ty
  rw [show (W.codec cfg E ty).enc = (M.codec cfg E ty).enc by
    rw [codec_enc (M := W) (c' := E.extC) (fun _ => rfl), codec_enc (M := M) (c' := E.extC) (fun _ => rfl)]] at hb
  exact ⟨h.round_trip v b hv hb t, h.skip_after v b hv hb t, h.skipS_after v b hv hb t, h.check_after v b hv hb t⟩

/-- Where no field holds a number of the machine's width nor a collection or string, every input is treated alike
on every machine, damaged or not. -/
theorem C130_machine_free {ι : Type} [DecidableEq ι] (M M' : Machine) (cfg : Cfg) (P : Program ι) (I : Impls P.kind)
    (hP : ∀ i, ∀ t ∈ (P.body i).types, t.usizeFree = true) (n : Nat) (i : ι) :
    M.program cfg P I n i = M'.program cfg P I n i :=
  (program_free M cfg P I hP n i).trans (program_free M' cfg P I hP n i).symm

/-- A `usize` written on a 64-bit machine is read on any other modulo its width, an `isize` likewise, without an
error. -/
theorem C130_usize {ι : Type} (M : Machine) (cfg : Cfg) (E : Env ι) (x : BitVec 64) (b : Bytes) (t : Bytes) :
    ((host.codec cfg E (.int .usize)).enc x = .ok b →
      (M.codec cfg E (.int .usize)).dec (b ++ t) = .ok (BitVec.ofNat 64 (x.toNat % 2 ^ M.bits), t)) ∧
    ((host.codec cfg E (.int .isize)).enc x = .ok b →
      (M.codec cfg E (.int .isize)).dec (b ++ t) = .ok (BitVec.ofInt 64 (x.toInt.bmod (2 ^ M.bits)), t)) := by
  constructor <;> intro h <;> injection h with h <;> subst h
  · have := decInt_encInt cfg .u64 x t
    exact Rd.bind_of_ok (f := fun x => pure (M.asUsize x)) this
  · have := decInt_encInt cfg .i64 x t
    exact Rd.bind_of_ok (f := fun x => pure (M.asIsize x)) this

/-- `2³² + 3` written as a `usize` by a 64-bit machine is `3` to a 32-bit one. -/
theorem C130_usize_false : ∃ (x : BitVec 64) (b : Bytes),
    (host.codec .default demoEnv (.int .usize)).enc x = .ok b ∧
    (host.codec .default demoEnv (.int .usize)).dec b = .ok (x, []) ∧
    ∀ checks, (Machine.codec (small checks) .default demoEnv (.int .usize)).dec b = .ok (3, []) :=
  ⟨4294967299, [253, 3, 0, 0, 0, 1, 0, 0, 0], by decide +kernel, by decide +kernel, by decide +kernel⟩

theorem readLen_modulo (M : Machine) (cfg : Cfg) (n : Nat) (hn : n < 2 ^ 64) (t : Bytes) :
    M.readLen cfg (encLen cfg n ++ t) = .ok (n % 2 ^ M.bits, t) := by
  have h1 := decInt_encInt cfg .u64 (BitVec.ofNat 64 n) t
  have h2 : M.decInt cfg .usize (encLen cfg n ++ t) =
    .ok (M.asUsize (BitVec.ofNat 64 n), t) := Rd.bind_of_ok (f := fun x => pure (M.asUsize x)) h1
  unfold Machine.readLen
  rw [Rd.bind_of_ok h2]
  show Res.ok ((M.asUsize (BitVec.ofNat 64 n)).toNat, t) = _
  have hle : n % 2 ^ M.bits < 2 ^ 64 := Nat.lt_of_le_of_lt (Nat.mod_le _ _) hn
  unfold asUsize
  rw [BitVec.toNat_ofNat, BitVec.toNat_ofNat, Nat.mod_eq_of_lt hn, Nat.mod_eq_of_lt hle]

/-- A byte string of any length below `2⁶⁴`, written on a 64-bit machine: another machine reads as many bytes as the
length is modulo its width, and takes the remaining bytes of the string for what follows it. -/
theorem C130_length {ι : Type} (M : Machine) (hM : M.bits ≤ 64) (cfg : Cfg) (E : Env ι) (v : Bytes)
    (hv : v.length < 2 ^ 64) (hcap : ∀ n, n ≤ v.length → E.cap (.int .u8) n = true) (b : Bytes)
    (hb : (host.codec cfg E .bytes).enc v = .ok b) (t : Bytes) :
    (M.codec cfg E .bytes).dec (b ++ t) =
      .ok (v.take (v.length % 2 ^ M.bits), v.drop (v.length % 2 ^ M.bits) ++ t) := by
  have hb : Res.ok (encLen cfg v.length ++ v) = .ok b := hb
  injection hb with hb
  subst hb
  have hlen := readLen_modulo M cfg v.length hv (v ++ t)
  have hle : v.length % 2 ^ M.bits ≤ v.length := Nat.mod_le _ _
  generalize v.length % 2 ^ M.bits = k at hlen hle
  rw [List.append_assoc]
  show (M.readLen cfg >>= _) _ = _
  rw [Rd.bind_of_ok hlen]
  by_cases hk : k = 0
  · subst hk
    rw [if_pos rfl]
    rfl
  · rw [if_neg hk, hcap k hle]
    show Rd.readExact k (v ++ t) = _
    have e : v ++ t = v.take k ++ (v.drop k ++ t) := by rw [← List.append_assoc, List.take_append_drop]
    rw [e]
    exact Rd.readExact_append _ _ _ (by rw [List.length_take]; omega)

/-- The same holds of every length prefix: a machine reads and skips a string, vector, map, set or heap as if the
length were its remainder modulo the width of `usize`. -/
theorem C130_prefix {ι : Type} (M : Machine) (cfg : Cfg) (E : Env ι) (ty : Ty ι) (hty : ty.prefixed = true) (n : Nat)
    (hn : n < 2 ^ 64) (t : Bytes) :
    let c := M.codec cfg E ty
    let s := encLen cfg n ++ t
    let s' := encLen cfg (n % 2 ^ M.bits) ++ t
    c.dec s = c.dec s' ∧ c.skip s = c.skip s' ∧ c.skipS s = c.skipS s' ∧ c.check s = c.check s' := by
  have hlen : M.readLen cfg (encLen cfg n ++ t) = M.readLen cfg (encLen cfg (n % 2 ^ M.bits) ++ t) := by
    rw [readLen_modulo M cfg n hn, readLen_modulo M cfg _ (Nat.lt_of_le_of_lt (Nat.mod_le _ _) hn), Nat.mod_mod]
  generalize encLen cfg n ++ t = s at *
  generalize encLen cfg (n % 2 ^ M.bits) ++ t = s' at *
  have bind : ∀ {α β : Type} (m : Rd α) (f : α → Rd β), m s = m s' → (m >>= f) s = (m >>= f) s' := fun m f h => by
    cases e : m s' with
    | ok p => obtain ⟨x, r⟩ := p; rw [Rd.bind_of_ok e, Rd.bind_of_ok (h.trans e)]
    | err x => rw [Rd.bind_of_err e, Rd.bind_of_err (h.trans e)]
    | panic => rw [Rd.bind_of_panic e, Rd.bind_of_panic (h.trans e)]
  have hb : ∀ cap, M.readBytes cfg cap s = M.readBytes cfg cap s' := fun _ => bind _ _ hlen
  have hs : M.skipBytes cfg s = M.skipBytes cfg s' := bind _ _ hlen
  have hsS : M.skipBytesS cfg s = M.skipBytesS cfg s' := bind _ _ hlen
  have hvec : ∀ (cap : Nat → Bool) {α : Type} (c : Codec α), (M.vecC cfg cap c).dec s = (M.vecC cfg cap c).dec s' ∧
      (M.vecC cfg cap c).skip s = (M.vecC cfg cap c).skip s' ∧ (M.vecC cfg cap c).skipS s = (M.vecC cfg cap c).skipS s' ∧
      (M.vecC cfg cap c).check s = (M.vecC cfg cap c).check s' := fun _ _ _ =>
    ⟨bind _ _ hlen, bind _ _ hlen, bind _ _ hlen, bind _ _ (bind _ _ hlen)⟩
  have hcoll : ∀ (cap : Nat → Bool) {α : Type} (c : Codec α) (inv : List α → Prop) (build : List α → List α),
      (M.collC cfg cap c inv build).dec s = (M.collC cfg cap c inv build).dec s' ∧
      (M.collC cfg cap c inv build).skip s = (M.collC cfg cap c inv build).skip s' ∧
      (M.collC cfg cap c inv build).skipS s = (M.collC cfg cap c inv build).skipS s' ∧
      (M.collC cfg cap c inv build).check s = (M.collC cfg cap c inv build).check s' := fun _ _ _ _ _ =>
    ⟨bind _ _ hlen, bind _ _ hlen, bind _ _ hlen, bind _ _ (bind _ _ hlen)⟩
  cases ty <;> first | (cases hty; done) | skip
  case string => exact ⟨bind _ _ (hb _), hs, hsS, bind _ _ (bind _ _ (hb _))⟩
  case path =>
    exact ⟨bind _ _ (bind _ _ (hb _)), bind _ _ (bind _ _ (bind _ _ (hb _))), bind _ _ (bind _ _ (bind _ _ (hb _))),
      bind _ _ (bind _ _ (bind _ _ (hb _)))⟩
  case bytes => exact ⟨hb _, hs, hsS, bind _ _ (hb _)⟩
  case vec u =>
    have e : M.codec cfg E (.vec u) = M.vecOf cfg E u (M.codec cfg E u) := rfl
    intro c _ _
    simp only [c, e]
    have hbulk : ∀ (cap : Nat → Bool) (W w : Nat), (M.bulkC cfg cap W w).dec s = (M.bulkC cfg cap W w).dec s' ∧
        (M.bulkC cfg cap W w).skip s = (M.bulkC cfg cap W w).skip s' ∧
        (M.bulkC cfg cap W w).skipS s = (M.bulkC cfg cap W w).skipS s' ∧
        (M.bulkC cfg cap W w).check s = (M.bulkC cfg cap W w).check s' := fun _ _ _ =>
      ⟨bind _ _ hlen, bind _ _ hlen, bind _ _ hlen, bind _ _ (bind _ _ hlen)⟩
    cases u <;> try exact hvec _ _
    case bool =>
      simp only [Machine.vecOf]
      split
      · exact ⟨bind _ _ hlen, bind _ _ hlen, bind _ _ hlen, bind _ _ (bind _ _ hlen)⟩
      · exact hvec _ _
    all_goals
      simp only [Machine.vecOf]
      split
      · exact hbulk _ _ _
      · exact hvec _ _
  all_goals exact hcoll _ _ _ _

/-- A vector written in one piece whose bytes are more than the machine can address is refused. -/
theorem C130_bulk {ι : Type} (M : Machine) (hM : M.bits ≤ 64) (cfg : Cfg) (hs : cfg.specialised = true) (E : Env ι) (ty : Ty ι)
    (w : Nat) (hw : ty.bulkWidth = some w) (n : Nat) (hn : n < 2 ^ M.bits) (hnw : 2 ^ M.bits ≤ n * w) (t : Bytes) :
    (M.codec cfg E (.vec ty)).dec (encLen cfg n ++ t) = .err .integerOverflow ∧
    (M.codec cfg E (.vec ty)).skip (encLen cfg n ++ t) = .err .integerOverflow ∧
    (M.codec cfg E (.vec ty)).skipS (encLen cfg n ++ t) = .err .integerOverflow := by
  have hlen := readLen_modulo M cfg n (Nat.lt_of_lt_of_le hn (Nat.pow_le_pow_right (by decide) hM)) t
  rw [Nat.mod_eq_of_lt hn] at hlen
  have h0 : n ≠ 0 := fun h => by
    subst h
    have := Nat.two_pow_pos M.bits
    omega
  have hmul : M.checkedMul n w .integerOverflow = .err .integerOverflow := if_neg (Nat.not_lt.2 hnw)
  have key : ∀ (cap : Nat → Bool) (W : Nat), (M.bulkC cfg cap W w).dec (encLen cfg n ++ t) = .err .integerOverflow ∧
      (M.bulkC cfg cap W w).skip (encLen cfg n ++ t) = .err .integerOverflow ∧
      (M.bulkC cfg cap W w).skipS (encLen cfg n ++ t) = .err .integerOverflow := fun cap W => by
    refine ⟨?_, ?_, ?_⟩ <;> (show (M.readLen cfg >>= _) _ = _; rw [Rd.bind_of_ok hlen])
    · rw [if_neg h0, hmul]
      rfl
    · rw [hmul]
      rfl
    · rw [hmul]
      rfl
  cases ty with
  | int k =>
    have e : (M.codec cfg E (.vec (.int k))) = M.vecOf cfg E (.int k) (M.codec cfg E (.int k)) := rfl
    rw [e]
    cases k <;> first
      | (cases hw; done)
      | (injection hw with hw
         subst hw
         simp only [Machine.vecOf, hs]
         exact key _ _)
  | float f =>
    have e : (M.codec cfg E (.vec (.float f))) = M.vecOf cfg E (.float f) (M.codec cfg E (.float f)) := rfl
    rw [e]
    cases f <;>
      (injection hw with hw
       subst hw
       simp only [Machine.vecOf, hs]
       exact key _ _)
  | uuid =>
    have e : (M.codec cfg E (.vec .uuid)) = M.vecOf cfg E .uuid (M.codec cfg E .uuid) := rfl
    rw [e]
    injection hw with hw
    subst hw
    simp only [Machine.vecOf, hs]
    exact key _ _
  | _ => exact absurd hw nofun

/-- Skipping an indexed map whose keys and values together are more than the machine can address is refused. -/
theorem C130_skip_map (M : Machine) (k v : Rd Unit) (flags : UInt8) (hf : flags &&& 1 ≠ 0) (n : Nat) (hn : n * 8 < 2 ^ M.bits)
    (h64 : n < 2 ^ 64) (table lens t : Bytes) (ht : table.length = n * 8) (hl : lens.length = 8)
    (hsum : 2 ^ M.bits ≤ leVal (lens.take 4) + leVal (lens.drop 4)) :
    M.skipIndexedMap k v (flags :: (writeVarint n ++ (table ++ (lens ++ t)))) = .err .overrun := by
  have hnb : n < 2 ^ M.bits := by omega
  have hb : Rd.readByte (flags :: (writeVarint n ++ (table ++ (lens ++ t)))) =
    .ok (flags, writeVarint n ++ (table ++ (lens ++ t))) := rfl
  have hr : M.readVarint (writeVarint n ++ (table ++ (lens ++ t))) = .ok (n, table ++ (lens ++ t)) := by
    unfold Machine.readVarint
    rw [Rd.bind_of_ok (Revision.readVarint_write n h64 _), show M.tryUsize n = .ok n from if_pos hnb]
    rfl
  have hm : M.checkedMul n 8 .overrun = .ok (n * 8) := if_pos hn
  have ha : M.checkedAdd (leVal (lens.take 4)) (leVal (lens.drop 4)) .overrun = .err .overrun :=
    if_neg (Nat.not_lt.2 hsum)
  unfold Machine.skipIndexedMap
  rw [Rd.bind_of_ok hb, Rd.bind_of_ok hr, if_neg hf, hm]
  show (Rd.advance (n * 8) >>= _) _ = _
  rw [Rd.bind_of_ok (Rd.advance_append _ _ _ ht), Rd.bind_of_ok (Rd.readExact_append _ _ _ hl)]
  show (Rd.lift (M.checkedAdd (leVal (lens.take 4)) (leVal (lens.drop 4)) .overrun) >>= _) _ = _
  rw [ha]
  rfl

/-- `2³²` bytes written by a 64-bit machine are an empty string to a 32-bit one, followed by `2³²` bytes it takes
for the next value. -/
theorem C130_length_false : ∃ v b : Bytes, v.length = 2 ^ 32 ∧
    (host.codec .default demoEnv .bytes).enc v = .ok b ∧
    (host.codec .default demoEnv .bytes).dec b = .ok (v, []) ∧
    ∀ checks, (Machine.codec (small checks) .default demoEnv .bytes).dec b = .ok (([] : Bytes), v) := by
  have hl : (List.replicate (2 ^ 32) (0 : UInt8)).length = 2 ^ 32 := List.length_replicate
  generalize List.replicate (2 ^ 32) (0 : UInt8) = v at hl
  have hcap : ∀ n, n ≤ v.length → demoEnv.cap (.int .u8) n = true := fun n hn => decide_eq_true (by
    rw [hl] at hn; exact Nat.le_trans hn (by decide))
  refine ⟨v, encLen .default v.length ++ v, hl, rfl, ?_, fun checks => ?_⟩
  · have := C130_length host (Nat.le_refl _) .default demoEnv v (by rw [hl]; decide) hcap _ rfl []
    rw [List.append_nil, show v.length % 2 ^ host.bits = v.length by rw [hl]; decide, List.take_length,
      List.drop_length] at this
    exact this
  · have := C130_length (small checks) (by show 32 ≤ 64; decide) .default demoEnv v (by rw [hl]; decide) hcap _ rfl []
    rw [List.append_nil, show v.length % 2 ^ (small checks).bits = 0 by rw [hl]; exact Nat.mod_self _, List.take_zero,
      List.drop_zero, List.append_nil] at this
    exact this

/-- Indexed collections do refuse a length the machine cannot hold: readers, skips and walkers. -/
theorem C130_indexed_length {κ ν : Type} (M : Machine) (n : Nat) (hn : 2 ^ M.bits ≤ n) (h64 : n < 2 ^ 64)
    (flags : UInt8) (t : Bytes) :
    (∀ (cap : Nat → Bool) (c : Rd κ), M.readIndexedSeq cap c (flags :: (writeVarint n ++ t)) = .err .integerOverflow) ∧
    (∀ (pre capK capV : Nat → Bool) (k : Rd κ) (v : Rd ν) (build : List (κ × ν) → List (κ × ν)),
      M.readIndexedMap pre capK capV k v build (flags :: (writeVarint n ++ t)) = .err .integerOverflow) ∧
    (∀ c : Rd Unit, M.skipIndexedSeq c (flags :: (writeVarint n ++ t)) = .err .integerOverflow) ∧
    (∀ k v : Rd Unit, M.skipIndexedMap k v (flags :: (writeVarint n ++ t)) = .err .integerOverflow) ∧
    (∀ validate, M.seqWalker (flags :: (writeVarint n ++ t)) validate = .err .integerOverflow) ∧
    (∀ validate, M.mapWalker (flags :: (writeVarint n ++ t)) validate = .err .integerOverflow) := by
  have hu : M.tryUsize n = .err .integerOverflow := if_neg (by omega)
  have hr : M.readVarint (writeVarint n ++ t) = .err .integerOverflow := by
    unfold Machine.readVarint
    rw [Rd.bind_of_ok (Revision.readVarint_write n h64 t), hu]
    rfl
  have hs : M.sliceVarint (writeVarint n ++ t) = .err .integerOverflow := by
    unfold Machine.sliceVarint
    rw [sliceVarint_write n h64 t]
    show (M.tryUsize n >>= _) = _
    rw [hu]
    rfl
  have hb : Rd.readByte (flags :: (writeVarint n ++ t)) = .ok (flags, writeVarint n ++ t) := rfl
  refine ⟨fun cap c => ?_, fun pre capK capV k v build => ?_, fun c => ?_, fun k v => ?_, fun w => ?_, fun w => ?_⟩
  · unfold Machine.readIndexedSeq; rw [Rd.bind_of_ok hb, Rd.bind_of_err hr]
  · unfold Machine.readIndexedMap; rw [Rd.bind_of_ok hb, Rd.bind_of_err hr]
  · unfold Machine.skipIndexedSeq; rw [Rd.bind_of_ok hb, Rd.bind_of_err hr]
  · unfold Machine.skipIndexedMap; rw [Rd.bind_of_ok hb, Rd.bind_of_err hr]
  · unfold Machine.seqWalker; simp only [hs, Res.err_bind]
  · unfold Machine.mapWalker; simp only [hs, Res.err_bind]

/-- Region lengths that only damaged payloads have make the walker of a 32-bit machine panic, in debug and in
release builds, where a 64-bit machine reports the damage. -/
theorem C130_walker_false : ∃ p : Bytes,
    host.mapWalker p true = .err .overrun ∧ release.mapWalker p true = .err .overrun ∧
    ∀ checks, (small checks).mapWalker p true = .panic :=
  ⟨[1, 0, 255, 255, 255, 255, 255, 255, 255, 255], by decide +kernel, by decide +kernel, by decide +kernel⟩

/-! ### C129: debug and release builds -/

/-- On a 64-bit machine a walker over an indexed map is the same in both builds, whatever the payload. -/
theorem C129_map_walker (p : Bytes) (hp : p.length < 2 ^ 63) (validate : Bool) :
    release.mapWalker p validate = host.mapWalker p validate :=
  ((mapWalker_near (B := 64) (by decide) p hp validate).2 (by decide)).symm

/-- A walker over an indexed sequence is the same in both builds, on machines of every width. -/
theorem C129_seq_walker (bits : Nat) (p : Bytes) (hp : p.length < 2 ^ bits) (validate : Bool) :
    (⟨bits, false⟩ : Machine).seqWalker p validate = (⟨bits, true⟩ : Machine).seqWalker p validate :=
  seqWalker_builds p hp validate

/-- On machines of other widths the walker over an indexed map succeeds in both builds with the same walker or in
neither.

Missing from the full property: where the debug build panics the release build may report the payload as cut short
(`C129_narrow_walker_false`). -/
theorem C129_narrow_walker_partial (bits : Nat) (h32 : 32 ≤ bits) (p : Bytes) (hp : p.length < 2 ^ (bits - 1))
    (validate : Bool) :
    (⟨bits, false⟩ : Machine).mapWalker p validate = (⟨bits, true⟩ : Machine).mapWalker p validate ∨
    ((⟨bits, true⟩ : Machine).mapWalker p validate = .panic ∧
      (⟨bits, false⟩ : Machine).mapWalker p validate = .err .overrun) :=
  (mapWalker_near h32 p hp validate).1.imp Eq.symm id

theorem C129_narrow_walker_false : ∃ p : Bytes,
    (small true).mapWalker p true = .panic ∧ (small false).mapWalker p true = .err .overrun :=
  ⟨[1, 0, 255, 255, 255, 255, 255, 0, 0, 0], by decide +kernel, by decide +kernel⟩

/-- Reading an indexed map gives the same in both builds unless it declares `2⁶¹ - 1` entries (`2 ^ (bits - 3) - 1` on
other machines).

Missing from the full property: that length (`C129_read_map_false`). -/
theorem C129_read_map_partial {κ ν : Type} (bits : Nat) (hB : 3 ≤ bits) (pre capK capV : Nat → Bool) (k : Rd κ)
    (v : Rd ν) (build : List (κ × ν) → List (κ × ν)) (s : Bytes)
    (hs : ∀ flags t r, s = flags :: t → (⟨bits, true⟩ : Machine).readVarint t ≠ .ok (2 ^ (bits - 3) - 1, r)) :
    (⟨bits, false⟩ : Machine).readIndexedMap pre capK capV k v build s =
      (⟨bits, true⟩ : Machine).readIndexedMap pre capK capV k v build s :=
  readIndexedMap_builds hB pre capK capV k v build s hs

/-- Ten bytes that panic in a debug build; a release build advances by nothing and goes on to read keys. -/
theorem C129_read_map_false : ∃ s : Bytes,
    host.readIndexedMap (fun _ => true) (fun _ => true) (fun _ => true) (Revision.intC .default .u8).dec
      (Revision.intC .default .u8).dec id s = .panic ∧
    release.readIndexedMap (fun _ => true) (fun _ => true) (fun _ => true) (Revision.intC .default .u8).dec
      (Revision.intC .default .u8).dec id s = .err .io :=
  ⟨[1, 253, 255, 255, 255, 255, 255, 255, 255, 31], rfl, rfl⟩

/-- Reading an indexed sequence, and skipping indexed collections, is the same in both builds. -/
theorem C129_indexed {α : Type} (bits : Nat) :
    (∀ (cap : Nat → Bool) (c : Rd α),
      (⟨bits, false⟩ : Machine).readIndexedSeq cap c = (⟨bits, true⟩ : Machine).readIndexedSeq cap c) ∧
    (∀ c : Rd Unit, (⟨bits, false⟩ : Machine).skipIndexedSeq c = (⟨bits, true⟩ : Machine).skipIndexedSeq c) ∧
    (∀ k v : Rd Unit, (⟨bits, false⟩ : Machine).skipIndexedMap k v = (⟨bits, true⟩ : Machine).skipIndexedMap k v) :=
  ⟨fun _ _ => rfl, fun _ => rfl, fun _ _ => rfl⟩

/-- Whatever the bytes, on a machine of any width, a release build of any program reads what the debug build reads,
value or error, unless the debug build panics; both skip alike; and both write alike.

Missing from the full property: inputs on which the debug build panics (`C129_read_map_false`). -/
theorem C129_program_partial {ι : Type} [DecidableEq ι] (bits : Nat) (cfg : Cfg) (P : Program ι) (I : Impls P.kind) (n : Nat)
    (i : ι) (s : Bytes) :
    let debug := Machine.program ⟨bits, true⟩ cfg P I n i
    let release := Machine.program ⟨bits, false⟩ cfg P I n i
    (debug.dec s = .panic ∨ release.dec s = debug.dec s) ∧ release.skip s = debug.skip s ∧
      release.skipS s = debug.skipS s ∧ release.enc = debug.enc := by
  have hB : Builds ⟨bits, true⟩ ⟨bits, false⟩ := ⟨rfl, .inl rfl⟩
  have hs := program_skipEq hB cfg P I n i
  refine ⟨?_, by rw [hs.skip], by rw [hs.skipS], funext fun v => C130_bytes _ _ cfg P I n i v⟩
  exact ((program_upto hB cfg P I (L := s.length) n i) s (Nat.le_refl _)).1.imp id Eq.symm

/-- Where no field is an indexed map the builds of a program do not differ at all. -/
theorem C129_program_no_maps {ι : Type} [DecidableEq ι] (bits : Nat) (cfg : Cfg) (P : Program ι) (I : Impls P.kind)
    (hP : P.NoIndexedMaps) (n : Nat) (i : ι) :
    Machine.program ⟨bits, false⟩ cfg P I n i = Machine.program ⟨bits, true⟩ cfg P I n i :=
  program_bits bits false true cfg P I hP n i

/-! ### The hypotheses can be met -/

/-- `C129_program_no_maps` applies to the demonstration program. -/
theorem demoProgram_noIndexedMaps : demoProgram.NoIndexedMaps := by
  intro i
  cases i with
  | tree => exact forall_mem_pair (forall_mem_pair nofun nofun) (List.forall_mem_singleton.2 nofun)
  | doc => exact List.forall_mem_cons.2 ⟨nofun, forall_mem_pair (fun _ _ _ => ⟨nofun, nofun⟩) nofun⟩

example (n : Nat) (s : Bytes) : (release.program .default demoProgram demoImpls n .doc).dec s =
    (demoProgram.codec .default demoImpls n .doc).dec s := by
  have h := C129_program_no_maps 64 .default demoProgram demoImpls demoProgram_noIndexedMaps n .doc
  rw [← (C130_host .default).2.1]
  exact congrArg (fun c => Codec.dec c s) h

example (n : Nat) (s : Bytes) : (Machine.program (small false) .default demoProgram demoImpls n .doc).dec s =
    (Machine.program (small true) .default demoProgram demoImpls n .doc).dec s :=
  congrArg (fun c => Codec.dec c s) (C129_program_no_maps 32 .default demoProgram demoImpls demoProgram_noIndexedMaps n .doc)

example (n : Nat) (s : Bytes) : (release.program .default demoProgram demoImpls n .doc).skip s =
    (host.program .default demoProgram demoImpls n .doc).skip s :=
  (C129_program_partial 64 .default demoProgram demoImpls n .doc s).2.1

example (n : Nat) (s : Bytes) : (Machine.program (small true) .default demoProgram demoImpls n .doc).dec s = .panic ∨
    (Machine.program (small false) .default demoProgram demoImpls n .doc).dec s =
      (Machine.program (small true) .default demoProgram demoImpls n .doc).dec s :=
  (C129_program_partial 32 .default demoProgram demoImpls n .doc s).1

/-- The tree of `C73` fits a 32-bit machine. -/
theorem demoTree_small (checks : Bool) :
    (Machine.program (small checks) .default demoProgram demoImpls 3 .tree).valid demoTreeNew := by
  refine ⟨1, _, mem_variantArms.2 ⟨.tail _ (.head _), rfl, rfl⟩, rfl, ⟨⟨_, rfl, ?_⟩, rfl⟩, fun h => by cases h⟩
  refine ⟨by show 2 < 2 ^ 32; decide, by show 2 < 2 ^ 64; decide, fun _ => rfl, forall_mem_pair ?_ ?_⟩
  · exact ⟨0, _, mem_variantArms.2 ⟨.head _, rfl, rfl⟩, rfl,
      ⟨⟨_, rfl, trivial⟩, ⟨_, rfl, by show 0 < 2 ^ 32; decide, by show 0 < 2 ^ 64; decide, fun h => absurd rfl h⟩, rfl⟩, fun h => by cases h⟩
  · exact ⟨1, _, mem_variantArms.2 ⟨.tail _ (.head _), rfl, rfl⟩, rfl,
      ⟨⟨_, rfl, by show 0 < 2 ^ 32; decide, by show 0 < 2 ^ 64; decide, fun h => absurd rfl h, fun a ha => by cases ha⟩, rfl⟩,
      fun h => by cases h⟩

/-- Written by a 64-bit release build, read by a 32-bit debug build. -/
example (t : Bytes) : (Machine.program (small true) .default demoProgram demoImpls 3 .tree).dec
    ([2, 1, 2, 2, 0, 5, 0, 2, 1, 0] ++ t) = .ok (demoTreeNew, t) :=
  (C130_exchange_partial (small true) release (by decide) (by decide) .default demoProgram demoImpls demoImpls_trans
    (demoProgram_readable _ (.inr rfl) rfl) 3 .tree demoTreeNew _ (demoTree_small true) rfl t).1

example : (release.program .default demoProgram demoImpls 3 .tree).enc demoTreeNew =
    .ok [2, 1, 2, 2, 0, 5, 0, 2, 1, 0] := by
  rw [C130_bytes release host, (C130_host .default).2.1]
  rfl

/-- A `usize` that fits, on a 16-bit machine. -/
example (t : Bytes) : (Machine.codec ⟨16, true⟩ .default demoEnv (.int .usize)).dec ([251, 1, 4] ++ t) =
    .ok ((1025 : BitVec 64), t) :=
  (C130_types_partial ⟨16, true⟩ host (by decide) (by decide) .default demoEnv (fun i => nomatch i) (.int .usize)
    (1025 : BitVec 64) [251, 1, 4] (by show 1025 % 2 ^ 64 < 2 ^ 16; decide) rfl t).1

/-- A `usize` that does not, and a negative `isize`. -/
example (t : Bytes) : (Machine.codec ⟨16, true⟩ .default demoEnv (.int .usize)).dec ([252, 5, 0, 1, 0] ++ t) =
    .ok ((5 : BitVec 64), t) :=
  (C130_usize ⟨16, true⟩ .default demoEnv (65541 : BitVec 64) [252, 5, 0, 1, 0] t).1 (by decide +kernel)

example (t : Bytes) : (Machine.codec (small true) .default demoEnv (.int .isize)).dec ([3] ++ t) =
    .ok ((-2 : BitVec 64), t) :=
  (C130_usize (small true) .default demoEnv (-2 : BitVec 64) [3] t).2 (by decide +kernel)

/-- Five bytes to a machine of two bits. -/
example (t : Bytes) : (Machine.codec ⟨2, true⟩ .default demoEnv .bytes).dec ([5, 1, 2, 3, 4, 5] ++ t) =
    .ok (([1] : Bytes), [2, 3, 4, 5] ++ t) :=
  C130_length ⟨2, true⟩ (by decide) .default demoEnv [1, 2, 3, 4, 5] (by decide)
    (fun n hn => decide_eq_true (by have : n ≤ 5 := hn; omega)) _ rfl t

example (t : Bytes) : (small true).mapWalker (1 :: (writeVarint (2 ^ 32) ++ t)) true = .err .integerOverflow :=
  (C130_indexed_length (κ := Unit) (ν := Unit) (small true) (2 ^ 32) (Nat.le_refl _) (by decide) 1 t).2.2.2.2.2 true

/-- A vector of `2⁵ + 1` numbers to a machine of five bits is one of a single number. -/
example (t : Bytes) : (Machine.codec ⟨5, true⟩ .default demoEnv (.vec (.int .u16))).dec (33 :: 1 :: 2 :: t) =
    .ok (([513] : List (BitVec 16)), t) :=
  (C130_prefix ⟨5, true⟩ .default demoEnv (.vec (.int .u16)) rfl 33 (by decide) (1 :: 2 :: t)).1.trans rfl

example (t : Bytes) : (Machine.codec (small true) .default demoEnv (.vec (.int .u16))).dec
    (encLen .default (2 ^ 31) ++ t) = .err .integerOverflow :=
  (C130_bulk (small true) (by decide) .default rfl demoEnv (.int .u16) 2 rfl (2 ^ 31) (by decide) (by decide) t).1

example (k v : Rd Unit) (t : Bytes) : (small true).skipIndexedMap k v
    (1 :: (writeVarint 0 ++ ([] ++ ([255, 255, 255, 255, 1, 0, 0, 0] ++ t)))) = .err .overrun :=
  C130_skip_map (small true) k v 1 (by decide) 0 (by decide) (by decide) [] _ t rfl rfl (by decide +kernel)

/-- A program of numbers only. -/
def demoPlainProgram : Program Unit where
  kind := fun _ => .struct
  history := fun _ => [⟨1, false, false⟩]
  body := fun _ => .struct [⟨"a", {}, .int .u64, fun _ _ => .ok (0 : BitVec 64), fun _ _ _ v => .ok v⟩,
    ⟨"next", {}, .option (.wrap (.ext ())), fun _ _ => .ok (none : Option _), fun _ _ _ v => .ok v⟩]

example (I : Impls demoPlainProgram.kind) (n : Nat) (s : Bytes) :
    (Machine.program (small true) .default demoPlainProgram I n ()).dec s =
      (host.program .default demoPlainProgram I n ()).dec s := by
  rw [C130_machine_free (small true) host .default demoPlainProgram I (fun _ => forall_mem_pair rfl rfl) n ()]

/-- Payloads the walkers accept, and one whose table would end past the address space. -/
example : release.mapWalker [1, 1, 0, 0, 0, 0, 0, 0, 0, 0, 1, 0, 0, 0, 1, 0, 0, 0, 7, 9] true =
    .ok ⟨[0, 0, 0, 0, 0, 0, 0, 0, 1, 0, 0, 0, 1, 0, 0, 0, 7, 9], some ⟨[0, 0, 0, 0, 0, 0, 0, 0], [7], [9]⟩, 1⟩ := by
  rw [C129_map_walker _ (by decide)]; decide +kernel

example : release.mapWalker [1, 253, 255, 255, 255, 255, 255, 255, 255, 31] true = .panic := by
  rw [C129_map_walker _ (by decide)]; decide +kernel

example : (⟨32, false⟩ : Machine).seqWalker [1, 1, 0, 0, 0, 0, 7] true = .ok ⟨[7], some [0, 0, 0, 0], 1⟩ := by
  rw [C129_seq_walker _ _ (by decide)]; decide +kernel

example (p : Bytes) (hp : p.length < 2 ^ 31) (w : IndexedMapWalker) (h : (small false).mapWalker p true = .ok w) :
    (small true).mapWalker p true = .ok w := by
  rcases C129_narrow_walker_partial 32 (by decide) p hp true with e | ⟨_, e⟩
  · exact e.symm.trans h
  · exact absurd (e.symm.trans h) nofun

example : release.readIndexedMap (fun _ => true) (fun _ => true) (fun _ => true) (Revision.intC .default .u8).dec
    (Revision.intC .default .u8).dec id [1, 1, 0, 0, 0, 0, 0, 0, 0, 0, 1, 0, 0, 0, 1, 0, 0, 0, 7, 9] = .ok ([(7, 9)], []) :=
  (C129_read_map_partial 64 (by decide) _ _ _ _ _ _ _ (fun flags t r h e => by
    injection h with _ h; subst h; injection e with e; injection e with e; exact absurd e (by decide))).trans (by decide +kernel)

end Revision
