import Verif.Proofs.Walk
import Verif.Props.Std

/-! # Properties of walkers: C24–C29, C65, C66 -/

namespace Revision

variable {ι : Type} (cfg : Cfg) (E : Env ι)

/-! ### C24: raw bytes of a leaf -/

/-- C24: `with_bytes` on a `String` hands out the UTF-8 bytes of the string decoding would have
produced and stops at the same place. -/
theorem C24_string (s r : Bytes) (v : String) (f : Bytes → β)
    (h : ((Ty.string : Ty ι).codec cfg E).dec s = .ok (v, r)) :
    leafWithBytes cfg f s = .ok (f v.toByteArray.data.toList, r) := by
  simp only [Ty.codec, stringC] at h
  obtain ⟨b, r1, h1, h2⟩ := Rd.bind_ok.1 h
  cases hu : fromUtf8 b with
  | ok v' =>
    rw [hu] at h2
    simp at h2
    obtain ⟨rfl, rfl⟩ := h2
    have := strBytes_of_fromUtf8 hu
    rw [strBytes] at this
    rw [this]
    exact readBytes_withBytes f h1
  | err e => simp [hu] at h2
  | panic => simp [hu] at h2

example := C24_string (ι := Empty) .default demoEnv [2, 104, 105, 9] [9] "hi" List.length (by decide +kernel)

/-- C24: the same for `PathBuf`. -/
theorem C24_path (s r v : Bytes) (f : Bytes → β)
    (h : ((Ty.path : Ty ι).codec cfg E).dec s = .ok (v, r)) :
    leafWithBytes cfg f s = .ok (f v, r) := by
  simp only [Ty.codec, pathC, Codec.mirror] at h
  obtain ⟨b, r1, h1, h2⟩ := Rd.bind_ok.1 h
  simp at h2
  obtain ⟨rfl, rfl⟩ := h2
  exact C24_string cfg E s r1 b f h1

example := C24_path (ι := Empty) .default demoEnv [2, 104, 105, 9] [9] [104, 105] id (by decide +kernel)

/-- C24: the same for `bytes::Bytes`. -/
theorem C24_bytes (s r v : Bytes) (f : Bytes → β)
    (h : ((Ty.bytes : Ty ι).codec cfg E).dec s = .ok (v, r)) :
    leafWithBytes cfg f s = .ok (f v, r) :=
  readBytes_withBytes f h

example := C24_bytes (ι := Empty) .default demoEnv [2, 0, 255, 9] [9] [0, 255] id (by decide +kernel)

/-- C24: decoding or skipping through the walker of a leaf reads the value that was written and leaves what
follows. -/
theorem C24_leaf (c : Codec α) (hc : c.Faithful) (v : α) (b t : Bytes) (hv : c.valid v) (hb : c.enc v = .ok b) :
    leafDecode c (b ++ t) = .ok (v, t) ∧ leafSkip c (b ++ t) = .ok ((), t) :=
  ⟨hc.round_trip v b hv hb t, hc.skip_after v b hv hb t⟩

example := C24_leaf boolC
  { round_trip := boolC_lawful.round_trip
    skip_after := fun v _ _ hb _ => by cases v <;> cases hb <;> rfl
    skipS_after := fun v _ _ hb _ => by cases v <;> cases hb <;> rfl
    check_after := fun v _ _ hb _ => by cases v <;> cases hb <;> rfl } true [1] [9] trivial rfl

example : leafDecode (Ty.codec .default demoEnv (.int .u32)) [7, 1] = .ok (7, [1]) ∧
    leafSkip (Ty.codec .default demoEnv (.int .u32)) [251, 7, 1, 9] = .ok ((), [9]) := by decide

/-- One-byte integers. -/
def IntTy.oneByte (k : IntTy) : Prop := k = .u8 ∨ k = .i8

theorem readN_oneByte {k : IntTy} (hk : k.oneByte) {n : Nat} {s r : Bytes} {l : List (BitVec k.bits)}
    (h : Rd.readN n (decInt cfg k) s = .ok (l, r)) :
    Rd.readExact n s = .ok (l.map fun v => UInt8.ofNat v.toNat, r) := by
  induction n generalizing s l with
  | zero => simp [Rd.readN] at h; simp [Rd.readExact, h]
  | succ n ih =>
    obtain ⟨a, l', r1, rfl, h1, h2⟩ := readN_succ_ok h
    have h3 := ih h2
    have h1' : ∃ b, s = b :: r1 ∧ UInt8.ofNat a.toNat = b := by
      have hd : readLE k.bits 1 s = .ok (a, r1) := by
        rcases hk with rfl | rfl <;> exact h1
      have he : k.bits = 8 := by rcases hk with rfl | rfl <;> rfl
      simp only [readLE] at hd
      obtain ⟨b, r2, h4, h5⟩ := Rd.bind_ok.1 hd
      simp at h5
      obtain ⟨rfl, rfl⟩ := h5
      cases s with
      | nil => simp [Rd.readExact] at h4
      | cons x s =>
        simp [Rd.readExact] at h4
        obtain ⟨rfl, rfl⟩ := h4
        refine ⟨x, rfl, ?_⟩
        simp only [leVal, BitVec.toNat_ofNat, he]
        apply UInt8.toNat.inj
        have := x.toNat_lt
        simp
    obtain ⟨b, rfl, rfl⟩ := h1'
    simp only [Rd.readExact] at h3 ⊢
    split at h3
    · rename_i hn
      rw [if_pos (by simp; omega)]
      simp at h3
      simp [h3.1, h3.2]
    · simp at h3

/-- C24: the same for `Vec<u8>` and `Vec<i8>`, with or without specialised vectors. -/
theorem C24_vec (k : IntTy) (hk : k = .u8 ∨ k = .i8) (s r : Bytes) (v : List (BitVec k.bits))
    (f : Bytes → β) (h : ((Ty.vec (.int k) : Ty ι).codec cfg E).dec s = .ok (v, r)) :
    leafWithBytes cfg f s = .ok (f (v.map fun x => UInt8.ofNat x.toNat), r) := by
  rw [leafWithBytes, withLengthPrefixedBytes_eq]
  simp only [Ty.codec, vecOf] at h
  cases hs : cfg.specialised with
  | false =>
    simp only [hs, Bool.false_and, Bool.false_eq_true, if_false] at h
    obtain ⟨r1, h1, h2⟩ := vecC_dec_ok h
    rw [Rd.bind_of_ok h1, Rd.bind_of_ok (readN_oneByte cfg hk h2)]
    rfl
  | true =>
    have e : (cfg.specialised && k != .usize && k != .isize) = true := by
      rcases hk with rfl | rfl <;> simp [hs]
    have e8 : k.bits = 8 := by rcases hk with rfl | rfl <;> rfl
    have e1 : k.bits / 8 = 1 := by rw [e8]
    rw [if_pos e] at h
    simp only [bulkC, e1, Nat.mul_one] at h
    obtain ⟨n, r1, h1, h2⟩ := Rd.bind_ok.1 h
    rw [Rd.bind_of_ok h1]
    by_cases h0 : n = 0
    · subst h0
      simp at h2
      obtain ⟨rfl, rfl⟩ := h2
      simp [Rd.bind_run, Rd.readExact]
    · rw [if_neg h0, if_pos (readLen_yields cfg _ _ _ h1)] at h2
      cases hc : E.cap (.int k) n with
      | false => simp [hc, Rd.alloc, Rd.bind_run] at h2
      | true =>
        rw [hc, Rd.alloc_true, Rd.pure_bind] at h2
        obtain ⟨b, r2, h3, h4⟩ := Rd.bind_ok.1 h2
        simp at h4
        obtain ⟨rfl, rfl⟩ := h4
        rw [Rd.bind_of_ok h3]
        have hb : b.length = n := Rd.Yields.readExact n _ _ _ h3
        have key : ∀ (n : Nat) (b : Bytes), b.length = n →
            (splitN 1 n b).map (fun e => UInt8.ofNat (BitVec.ofNat k.bits (leVal e)).toNat) = b := by
          intro n
          induction n with
          | zero => intro b hb; simp [splitN]; exact List.eq_nil_of_length_eq_zero hb
          | succ n ih =>
            intro b hb
            cases b with
            | nil => simp at hb
            | cons x b =>
              have := x.toNat_lt
              simp only [splitN, List.map_cons, List.take_succ_cons, List.take_zero,
                List.drop_succ_cons, List.drop_zero]
              rw [ih b (by simpa using hb)]
              congr 1
              apply UInt8.toNat.inj
              simp [leVal, e8]
        simp only [List.map_map, Function.comp_def]
        rw [key n b hb]
        rfl

example := C24_vec (ι := Empty) .default demoEnv .i8 (.inr rfl) [2, 1, 255, 9] [9] [1, 255] id (by decide +kernel)

/-- C24: on every type marked for it, `with_bytes` hands out the bytes of the value decoding would have produced and
stops at the same place. -/
theorem C24_marked : ∀ (t : Ty ι) (_ : t.lengthPrefixed = true) (s r : Bytes) (v : t.denote E.X) (f : Bytes → β)
    (_ : (t.codec cfg E).dec s = .ok (v, r)), leafWithBytes cfg f s = .ok (f (t.raw v), r)
  | .string, _, s, r, v, f, h => C24_string cfg E s r v f h
  | .path, _, s, r, v, f, h => C24_path cfg E s r v f h
  | .bytes, _, s, r, v, f, h => C24_bytes cfg E s r v f h
  | .vec (.int .u8), _, s, r, v, f, h => C24_vec cfg E .u8 (.inl rfl) s r v f h
  | .vec (.int .i8), _, s, r, v, f, h => C24_vec cfg E .i8 (.inr rfl) s r v f h
  | .wrap t, ht, s, r, v, f, h => C24_marked t ht s r v f h

/-- A `Cow<str>`. -/
example : leafWithBytes .default id [2, 104, 105, 9] = .ok ((Ty.wrap .string : Ty Empty).raw (X := demoEnv.X) "hi", [9]) :=
  C24_marked .default demoEnv (.wrap .string) rfl [2, 104, 105, 9] [9] "hi" id (by decide +kernel)

/-- C24: conversely, for `bytes::Bytes`, whatever `with_bytes` hands out is what decoding produces
(when the allocation is granted). -/
theorem C24_bytes_iff (hcap : ∀ t n, E.cap t n = true) (s r v : Bytes) :
    ((Ty.bytes : Ty ι).codec cfg E).dec s = .ok (v, r) ↔ leafWithBytes cfg id s = .ok (v, r) :=
  ⟨readBytes_withBytes id, withBytes_readBytes (hcap _)⟩

example : ((Ty.bytes : Ty Empty).codec .default { demoEnv with cap := fun _ _ => true }).dec [2, 0, 255, 9] =
    .ok ([0, 255], [9]) :=
  (C24_bytes_iff .default { demoEnv with cap := fun _ _ => true } (fun _ _ => rfl) [2, 0, 255, 9] [9] [0, 255]).2
    (by decide)

example : leafWithBytes .default List.length [3, 97, 98, 99, 5] = .ok (3, [5]) := by decide

/-! ### C25: options and results -/

/-- C25: an option walker decodes, and skips, exactly as `Option<T>` does. -/
theorem C25_option (t : Ty ι) :
    (OptionWalker.new cfg >>= fun w => w.decode (t.codec cfg E)) = ((Ty.option t).codec cfg E).dec ∧
    (OptionWalker.new cfg >>= fun w => w.skip (t.codec cfg E)) = ((Ty.option t).codec cfg E).skip := by
  have h10 : ¬ (1 : BitVec 8) = 0 := by decide
  constructor
  · ext s : 1
    simp only [OptionWalker.new, Ty.codec, optionC, Rd.bind_assoc, Rd.bind_run]
    cases decInt cfg .u8 s with
    | err e => rfl
    | panic => rfl
    | ok p =>
      obtain ⟨tag, r⟩ := p
      simp only
      by_cases h0 : tag = 0
      · subst h0; simp [OptionWalker.decode]
      · by_cases h1 : tag = 1
        · subst h1
          rw [if_neg h0, if_pos rfl, if_pos (.inr rfl)]
          simp only [Rd.pure_run, OptionWalker.decode]
          rw [if_neg h10, if_pos trivial]
        · rw [if_neg h0, if_neg h1, if_neg (by rintro (h | h) <;> contradiction)]
          rfl
  · ext s : 1
    simp only [OptionWalker.new, Ty.codec, optionC, Rd.bind_assoc, Rd.bind_run]
    cases decInt cfg .u8 s with
    | err e => rfl
    | panic => rfl
    | ok p =>
      obtain ⟨tag, r⟩ := p
      simp only
      by_cases h0 : tag = 0
      · subst h0
        rw [if_pos rfl, if_pos (.inl rfl)]
        simp only [Rd.pure_run, OptionWalker.skip]
        rw [if_neg (by decide)]
        rfl
      · by_cases h1 : tag = 1
        · subst h1
          rw [if_neg h0, if_pos rfl, if_pos (.inr rfl)]
          rfl
        · rw [if_neg h0, if_neg h1, if_neg (by rintro (h | h) <;> contradiction)]
          rfl

/-- C25: the walker shows the alternative that decoding would give, and walking into the payload
(doing `k` with it) starts exactly at the payload. -/
theorem C25_option_payload (t : Ty ι) (s r : Bytes) (v : Option (t.denote E.X))
    (h : ((Ty.option t).codec cfg E).dec s = .ok (v, r)) (k : Rd β) :
    ∃ w r1, OptionWalker.new cfg s = .ok (w, r1) ∧ w.isSome = v.isSome ∧ w.isNone = v.isNone ∧
      (v = none → r1 = r ∧ w.intoSome k r1 = .err .deserialize) ∧
      (∀ a, v = some a → w.intoSome k r1 = k r1 ∧ (t.codec cfg E).dec r1 = .ok (a, r)) := by
  rcases OptionWalker.new_ok h with ⟨rfl, h1⟩ | ⟨a, r1, rfl, h1, h2⟩
  · exact ⟨_, _, h1, rfl, rfl, fun _ => ⟨rfl, rfl⟩, by simp⟩
  · exact ⟨_, _, h1, rfl, rfl, by simp, fun a' e => by cases e; exact ⟨rfl, h2⟩⟩

example := C25_option_payload .default demoEnv (.int .u8) [1, 7, 9] [9] (some 7) rfl Rd.readByte

/-- C25: a result walker accepts, decodes and skips exactly what `Result<T, E>` does (decoding the
payload reports its own error rather than wrapping it). -/
theorem C25_result (t e : Ty ι) :
    (∀ s v r, (ResultWalker.new cfg >>= fun w => w.decode (t.codec cfg E) (e.codec cfg E)) s = .ok (v, r) ↔
      ((Ty.result t e).codec cfg E).dec s = .ok (v, r)) ∧
    (ResultWalker.new cfg >>= fun w => w.skip (t.codec cfg E) (e.codec cfg E)) =
      ((Ty.result t e).codec cfg E).skip := by
  constructor
  · intro s v r
    simp only [ResultWalker.new, Ty.codec, resultC, Rd.bind_assoc]
    simp only [Rd.bind_run]
    cases readU32 cfg s with
    | err e => simp
    | panic => simp
    | ok p =>
      obtain ⟨tag, r'⟩ := p
      simp only
      by_cases h0 : tag = 0
      · subst h0
        simp only [Rd.pure_run, true_or, if_true, ResultWalker.decode]
        simp only [Rd.bind_ok, Rd.mapErr_ok]
      · by_cases h1 : tag = 1
        · subst h1
          simp only [Rd.pure_run, or_true, if_true, if_neg h0, ResultWalker.decode]
          simp only [Rd.bind_ok, Rd.mapErr_ok]
        · rw [if_neg h0, if_neg h1, if_neg (by rintro (h | h) <;> contradiction)]
          simp
  · ext s : 1
    simp only [ResultWalker.new, Ty.codec, resultC, Rd.bind_assoc, Rd.bind_run]
    cases readU32 cfg s with
    | err e => rfl
    | panic => rfl
    | ok p =>
      obtain ⟨tag, r⟩ := p
      simp only
      by_cases h0 : tag = 0
      · subst h0; rfl
      · by_cases h1 : tag = 1
        · subst h1; rfl
        · rw [if_neg h0, if_neg h1, if_neg (by rintro (h | h) <;> contradiction)]
          rfl

/-- C25: the result walker shows the alternative, and walking into it starts at its payload;
walking into the other one is an error. -/
theorem C25_result_payload (t e : Ty ι) (s r : Bytes) (v : Except (e.denote E.X) (t.denote E.X))
    (h : ((Ty.result t e).codec cfg E).dec s = .ok (v, r)) (k : Rd β) :
    ∃ w r1, ResultWalker.new cfg s = .ok (w, r1) ∧
      (∀ a, v = .ok a → w.isOk = true ∧ w.isErr = false ∧ w.intoOk k r1 = k r1 ∧
        w.intoErr k r1 = .err .deserialize ∧ (t.codec cfg E).dec r1 = .ok (a, r)) ∧
      (∀ x, v = .error x → w.isOk = false ∧ w.isErr = true ∧ w.intoErr k r1 = k r1 ∧
        w.intoOk k r1 = .err .deserialize ∧ (e.codec cfg E).dec r1 = .ok (x, r)) := by
  rcases ResultWalker.new_ok h with ⟨a, r1, rfl, h1, h2⟩ | ⟨a, r1, rfl, h1, h2⟩
  · exact ⟨_, _, h1, fun a' e => by cases e; exact ⟨rfl, rfl, rfl, rfl, h2⟩, by simp⟩
  · exact ⟨_, _, h1, by simp, fun a' e => by cases e; exact ⟨rfl, rfl, rfl, rfl, h2⟩⟩

example := C25_result_payload .default demoEnv (.int .u8) .bool [1, 1, 9] [9] (.error true) rfl Rd.readByte

example : (OptionWalker.new .default >>= fun w => w.decode (intC .default .u8)) [1, 9, 4] =
    .ok (some 9, [4]) := by rfl

/-! ### The ways of consuming an item -/

/-- `decode` on an item or leaf. -/
def Observer.decode (c : Codec α) : Observer c α := ⟨c.dec, id, fun _ _ _ h => h⟩

/-- `skip` on an item or leaf. -/
def Observer.skip {c : Codec α} (hc : c.Lawful) : Observer c Unit :=
  ⟨c.skip, fun _ => (), fun s a r h => by obtain ⟨_, hx⟩ := hc.skip_agree s a r h; exact hx⟩

/-- `with_bytes` on a string item. -/
def Observer.stringBytes (f : Bytes → β) : Observer ((Ty.string : Ty ι).codec cfg E) β :=
  ⟨leafWithBytes cfg f, fun v => f v.toByteArray.data.toList,
    fun s a r h => C24_string cfg E s r a f h⟩

/-- Walking into an optional item and decoding its payload. -/
def Observer.intoOption (t : Ty ι) :
    Observer ((Ty.option t).codec cfg E) (Option (t.denote E.X)) :=
  ⟨OptionWalker.new cfg >>= fun w => w.decode (t.codec cfg E), id, fun s a r h => by
    rw [(C25_option cfg E t).1]; exact h⟩

/-- Forget what an observer saw apart from `f`. -/
def Observer.map {c : Codec α} (f : β → γ) (o : Observer c β) : Observer c γ :=
  ⟨do let b ← o.read; pure (f b), fun a => f (o.view a), fun s a r h => by
    rw [Rd.bind_of_ok (o.follows s a r h)]; rfl⟩

/-! ### C26: sequences -/

/-- C26: wherever a vector (not bulk-encoded) decodes to `l`, a sequence walker visiting the items
with any observers — decode, skip, raw bytes, walking in, in any mixture, stopping anywhere — sees
the items of `l` in order, has one fewer remaining per item, and skipping what remains stops where
decoding stops. -/
theorem C26_vec (hE : E.Lawful) (t : Ty ι) (hb : vecUsesBulkEncoding cfg t = false)
    (s r : Bytes) (l : List (t.denote E.X))
    (h : ((Ty.vec t).codec cfg E).dec s = .ok (l, r)) (os : List (Observer (t.codec cfg E) β)) :
    ∃ r1 r2 w, SeqWalker.new cfg s = .ok (⟨l.length⟩, r1) ∧
      seqVisit os ⟨l.length⟩ r1 = .ok ((List.zipWith (fun o a => o.view a) os l, w), r2) ∧
      w.remaining = l.length - os.length ∧
      w.skipRemaining (t.codec cfg E).skip r2 = .ok ((), r) := by
  simp only [Ty.codec] at h
  rw [vecOf_elementwise hb] at h
  obtain ⟨r1, h1, h2⟩ := vecC_dec_ok h
  obtain ⟨r2, h3, h4⟩ := seqVisit_readN os h2
  refine ⟨r1, r2, _, ?_, h3, rfl, ?_⟩
  · rw [SeqWalker.new, Rd.bind_of_ok h1]; rfl
  · obtain ⟨_, hx⟩ := Rd.Agree.readN (t.codec_lawful cfg hE).skip_agree _ _ _ _ h4
    exact hx

example := C26_vec .default demoEnv demoEnv_lawful .string rfl [2, 1, 97, 1, 98, 9] [9] ["a", "b"] (by decide +kernel)
  [Observer.stringBytes .default demoEnv List.length]

/-- C26: the same for sets, heaps and `imbl` vectors: the walker sees the elements on the wire. -/
theorem C26_sets (hE : E.Lawful) (t c : Ty ι)
    (hc : c = .hashSet t ∨ c = .btreeSet t ∨ c = .binaryHeap t ∨ c = .vector t)
    (s r : Bytes) (m : c.denote E.X) (h : (c.codec cfg E).dec s = .ok (m, r))
    (os : List (Observer (t.codec cfg E) β)) :
    ∃ l r1 r2 w, (vecC cfg (E.cap t) (t.codec cfg E)).dec s = .ok (l, r) ∧
      c.walk cfg s = .ok (.seq ⟨l.length⟩, r1) ∧
      seqVisit os ⟨l.length⟩ r1 = .ok ((List.zipWith (fun o a => o.view a) os l, w), r2) ∧
      w.remaining = l.length - os.length ∧
      w.skipRemaining (t.codec cfg E).skip r2 = .ok ((), r) := by
  have key : ∀ l, (vecC cfg (E.cap t) (t.codec cfg E)).dec s = .ok (l, r) →
      c.walk cfg = (do return .seq (← SeqWalker.new cfg)) →
      ∃ l r1 r2 w, (vecC cfg (E.cap t) (t.codec cfg E)).dec s = .ok (l, r) ∧
      c.walk cfg s = .ok (.seq ⟨l.length⟩, r1) ∧
      seqVisit os ⟨l.length⟩ r1 = .ok ((List.zipWith (fun o a => o.view a) os l, w), r2) ∧
      w.remaining = l.length - os.length ∧
      w.skipRemaining (t.codec cfg E).skip r2 = .ok ((), r) := by
    intro l hl hw
    obtain ⟨r1, h1, h2⟩ := vecC_dec_ok hl
    obtain ⟨r2, h3, h4⟩ := seqVisit_readN os h2
    refine ⟨l, r1, r2, _, hl, ?_, h3, rfl, ?_⟩
    · rw [hw]
      simp only [SeqWalker.new, Rd.bind_assoc]
      rw [Rd.bind_of_ok h1]; rfl
    · obtain ⟨_, hx⟩ := Rd.Agree.readN (t.codec_lawful cfg hE).skip_agree _ _ _ _ h4
      exact hx
  rcases hc with rfl | rfl | rfl | rfl
  all_goals
    obtain ⟨l, h1, _⟩ := coll_wire cfg h
    exact key l h1 rfl

example := C26_sets .default demoEnv demoEnv_lawful (.int .u8) (.hashSet (.int .u8)) (.inl rfl) [3, 9, 2, 9, 5] [5] [9, 2] rfl
  [Observer.decode _]

/-- Decode the first of three strings, take the length of the second, leave the third. -/
example : (SeqWalker.new .default >>= fun w => seqVisit
      [(Observer.decode ((Ty.string : Ty Empty).codec .default demoEnv)).map (fun v => v.utf8ByteSize),
       Observer.stringBytes .default demoEnv List.length] w)
      [3, 1, 97, 2, 98, 99, 1, 100] = .ok (([1, 2], ⟨1⟩), [1, 100]) := by
  decide +kernel

/-! ### C27: maps -/

/-- C27: wherever a map decodes, a map walker visiting the entries with any observers for keys and
values sees the entries on the wire in order, has one fewer remaining per entry, and skipping what
remains stops where decoding stops. -/
theorem C27_map (hE : E.Lawful) (k v c : Ty ι) (hc : c = .hashMap k v ∨ c = .btreeMap k v)
    (s r : Bytes) (m : c.denote E.X) (h : (c.codec cfg E).dec s = .ok (m, r))
    (os : List (Observer (k.codec cfg E) β × Observer (v.codec cfg E) γ)) :
    ∃ l r1 r2 w, ((Ty.vec (.pair k v)).codec cfg E).dec s = .ok (l, r) ∧
      c.walk cfg s = .ok (.map ⟨l.length⟩, r1) ∧
      mapVisit os ⟨l.length⟩ r1 =
        .ok ((List.zipWith (fun o e => (o.1.view e.1, o.2.view e.2)) os l, w), r2) ∧
      w.remaining = l.length - os.length ∧
      w.skipRemaining (k.codec cfg E).skip (v.codec cfg E).skip r2 = .ok ((), r) := by
  have key : ∀ l, (vecC cfg (E.cap (.pair k v)) (pairC (k.codec cfg E) (v.codec cfg E))).dec s = .ok (l, r) →
      c.walk cfg = (do return .map (← MapWalker.new cfg)) →
      ∃ l r1 r2 w, ((Ty.vec (.pair k v)).codec cfg E).dec s = .ok (l, r) ∧
      c.walk cfg s = .ok (.map ⟨l.length⟩, r1) ∧
      mapVisit os ⟨l.length⟩ r1 =
        .ok ((List.zipWith (fun o e => (o.1.view e.1, o.2.view e.2)) os l, w), r2) ∧
      w.remaining = l.length - os.length ∧
      w.skipRemaining (k.codec cfg E).skip (v.codec cfg E).skip r2 = .ok ((), r) := by
    intro l hl hw
    obtain ⟨r1, h1, h2⟩ := vecC_dec_ok hl
    obtain ⟨r2, h3, h4⟩ := mapVisit_readN os h2
    refine ⟨l, r1, r2, _, hl, ?_, h3, rfl, ?_⟩
    · rw [hw]
      simp only [MapWalker.new, Rd.bind_assoc]
      rw [Rd.bind_of_ok h1]; rfl
    · have hag : (pairC (k.codec cfg E) (v.codec cfg E)).dec.Agree
          (do (k.codec cfg E).skip; (v.codec cfg E).skip) :=
        Rd.Agree.bind (k.codec_lawful cfg hE).skip_agree fun _ _ =>
          Rd.Agree.bind_pure_left (v.codec_lawful cfg hE).skip_agree
      obtain ⟨_, hx⟩ := Rd.Agree.readN hag _ _ _ _ h4
      exact hx
  rcases hc with rfl | rfl
  all_goals
    obtain ⟨l, h1, _⟩ := coll_wire cfg h
    exact key l h1 rfl

example := C27_map .default demoEnv demoEnv_lawful (.int .u8) .bool (.hashMap (.int .u8) .bool) (.inl rfl)
  [2, 7, 1, 9, 0, 5] [5] [(7, true), (9, false)] rfl [(Observer.decode _, Observer.decode _)]

/-- C27: `decode_pair` and `skip_pair` on a fresh entry are key then value. -/
theorem C27_pairs (k v : Ty ι) (w : MapWalker) (e : MapEntry) (he : w.nextEntry = some e)
    (s r1 r : Bytes) (a : k.denote E.X) (b : v.denote E.X) (hE : E.Lawful)
    (hk : (k.codec cfg E).dec s = .ok (a, r1)) (hv : (v.codec cfg E).dec r1 = .ok (b, r)) :
    e.decodePair (k.codec cfg E) (v.codec cfg E) s = .ok (((a, b), ⟨w.remaining - 1⟩), r) ∧
    e.skipPair (k.codec cfg E) (v.codec cfg E) s = .ok (⟨w.remaining - 1⟩, r) := by
  simp only [MapWalker.nextEntry] at he
  split at he
  · simp at he
  · simp at he
    subst he
    obtain ⟨_, hks⟩ := (k.codec_lawful cfg hE).skip_agree _ _ _ hk
    obtain ⟨_, hvs⟩ := (v.codec_lawful cfg hE).skip_agree _ _ _ hv
    simp only [MapEntry.decodePair, MapEntry.skipPair, MapEntry.key, MapEntry.value,
      MapEntry.expectCursor, ne_eq, not_true, if_false, Rd.lift_ok, Rd.pure_bind, Rd.bind_assoc]
    exact ⟨by rw [Rd.bind_of_ok hk, Rd.bind_of_ok hv]; rfl,
      by rw [Rd.bind_of_ok hks, Rd.bind_of_ok hvs]; rfl⟩

example := C27_pairs .default demoEnv (.int .u8) .bool ⟨2⟩ ⟨⟨2⟩, .beforeKey⟩ rfl [7, 1, 9, 0] [1, 9, 0] [9, 0] 7 true
  demoEnv_lawful rfl rfl

/-- C27: touching the value before the key, or the key twice, is an error whatever the input. -/
theorem C27_out_of_order (w : MapWalker) (m : Rd β) (s : Bytes) :
    (⟨w, .beforeKey⟩ : MapEntry).value m s = .err .deserialize ∧
    (⟨w, .beforeValue⟩ : MapEntry).key m s = .err .deserialize := ⟨rfl, rfl⟩

example : (MapWalker.new .default >>= fun w => mapVisit
      [(Observer.decode ((Ty.int .u8 : Ty Empty).codec .default demoEnv),
        Observer.decode ((Ty.bool : Ty Empty).codec .default demoEnv))] w)
      [2, 7, 1, 9, 0] = .ok (([(7, true)], ⟨1⟩), [9, 0]) := by
  rfl

/-! ### C28: searching a sorted map -/

/-- C28: on bytes holding a sorted list of entries, `find` with the comparison against a probe key
either finds the entry equal to the probe, leaving the reader at its value, or there is no such
entry and the reader is left where decoding the map stops. -/
theorem C28_find (hE : E.Lawful) (k v : Ty ι) (s r : Bytes) (l : List (k.denote E.X × v.denote E.X))
    (h : ((Ty.vec (.pair k v)).codec cfg E).dec s = .ok (l, r))
    (hs : l.Pairwise fun a b => E.cmp k a.1 b.1 = .lt) (probe : k.denote E.X) :
    let find := MapWalker.new cfg >>= fun w =>
      w.find (k.codec cfg E) (v.codec cfg E) (fun key => E.cmp k key probe)
    (∃ pre e post r1 r2, l = pre ++ e :: post ∧ E.cmp k e.1 probe = .eq ∧
        find s = .ok (true, r1) ∧ (v.codec cfg E).dec r1 = .ok (e.2, r2) ∧
        Rd.readN post.length (pairC (k.codec cfg E) (v.codec cfg E)).dec r2 = .ok (post, r)) ∨
    ((∀ e ∈ l, E.cmp k e.1 probe ≠ .eq) ∧ find s = .ok (false, r)) := by
  have htr := hE.trans k
  obtain ⟨r0, h1, h2⟩ := vecC_dec_ok (c := pairC (k.codec cfg E) (v.codec cfg E)) h
  have hp : l.Pairwise fun a b => E.cmp k a.1 probe ≠ .lt → E.cmp k b.1 probe = .gt := by
    refine hs.imp ?_
    intro a b hab hne
    have hge : (E.cmp k probe a.1).isLE = true := by
      cases hc : E.cmp k a.1 probe with
      | lt => exact absurd hc hne
      | eq =>
        rw [Std.OrientedCmp.eq_swap (cmp := E.cmp k), hc]; rfl
      | gt => rw [Std.OrientedCmp.eq_swap (cmp := E.cmp k), hc]; rfl
    have := Std.TransCmp.lt_of_isLE_of_lt hge hab
    rw [Std.OrientedCmp.eq_swap (cmp := E.cmp k), this]; rfl
  have := findLoop_readN (key := (k.codec cfg E).dec) (view := id) (fun _ _ _ h => h)
    (k.codec_lawful cfg hE).skip_agree (v.codec_lawful cfg hE).skip_agree
    (fun key => E.cmp k key probe) h2 hp
  simp only [MapWalker.new, MapWalker.find, Rd.bind_assoc, Rd.pure_bind]
  rw [Rd.bind_of_ok h1]
  exact this

example := C28_find .default demoEnv demoEnv_lawful (.int .u8) .bool [3, 2, 0, 5, 1, 9, 0, 77] [77]
  [(2, false), (5, true), (9, false)] rfl (by
    simp only [List.pairwise_cons, List.mem_cons, List.not_mem_nil, or_false, forall_eq_or_imp, forall_eq]
    exact ⟨⟨by decide, by decide⟩, by decide, by simp⟩) 5

/-- C28: so on a serialised `BTreeMap`, followed by anything, `find` succeeds exactly for the keys
of the map, decoding then gives the key's value, and for an absent key the reader is left exactly
after the map. -/
theorem C28_find_serialised (hE : E.Lawful) (k v : Ty ι)
    (m : List (k.denote E.X × v.denote E.X)) (h1 : (Ty.btreeMap k v).WF E m)
    (h2 : (Ty.btreeMap k v).Fits E m) (probe : k.denote E.X) :
    let find := MapWalker.new cfg >>= fun w =>
      w.find (k.codec cfg E) (v.codec cfg E) (fun key => E.cmp k key probe)
    ∃ b, ((Ty.btreeMap k v).codec cfg E).toVec m = .ok b ∧ ∀ rest,
      (∀ val, (m.find? fun e => E.cmp k e.1 probe == .eq).map Prod.snd = some val →
        ∃ r1 r2, find (b ++ rest) = .ok (true, r1) ∧ (v.codec cfg E).dec r1 = .ok (val, r2)) ∧
      ((m.find? fun e => E.cmp k e.1 probe == .eq) = none → find (b ++ rest) = .ok (false, rest)) := by
  obtain ⟨b, hb, hd⟩ := C06_framing cfg E hE (.btreeMap k v) m h1 h2
  refine ⟨b, hb, fun rest => ?_⟩
  have htr := hE.trans k
  obtain ⟨l, hl, hbuild⟩ := coll_wire cfg (hd rest)
  have hlm : l = m := by
    have hv := Ty.valid_of cfg hE (.btreeMap k v) m h1 h2
    simp only [Ty.codec, btreeMapC, collC] at hb
    obtain ⟨x, hx, hb'⟩ := Res.bind_eq_ok.1 (show _ = _ from hb)
    have hlaw : ((Ty.vec (.pair k v)).codec cfg E).Lawful := Ty.codec_lawful cfg hE _
    have : ((Ty.vec (.pair k v)).codec cfg E).enc m = .ok b := by
      simp only [Ty.codec, vecOf, vecC, hx, Res.ok_bind]
      exact hb'
    have h3 := hlaw.round_trip m b ⟨hv.1, fun _ => hv.2.1, hv.2.2.1⟩ this rest
    have h4 : ((Ty.vec (.pair k v)).codec cfg E).dec (b ++ rest) = .ok (l, rest) := hl
    rw [h3] at h4
    simp at h4
    exact h4.symm
  subst hlm
  clear hbuild
  have hcase := C28_find cfg E hE k v (b ++ rest) rest l hl h1.2 probe
  constructor
  · intro val hval
    rcases hcase with ⟨pre, e, post, r1, r2, he, heq, hf, hdv, _⟩ | ⟨hno, _⟩
    · refine ⟨r1, r2, hf, ?_⟩
      rw [hdv]
      have hfind : l.find? (fun e => E.cmp k e.1 probe == .eq) = some e := by
        rw [he, List.find?_append]
        have : pre.find? (fun e => E.cmp k e.1 probe == .eq) = none := by
          rw [List.find?_eq_none]
          intro x hx hxe
          have hpw := h1.2
          rw [he, List.pairwise_append] at hpw
          have hlt := hpw.2.2 x hx e (by simp)
          have hxe' : E.cmp k x.1 probe = .eq := by simpa using hxe
          have : E.cmp k x.1 e.1 = .eq := by
            have h' : E.cmp k probe e.1 = .eq := by
              rw [Std.OrientedCmp.eq_swap (cmp := E.cmp k), heq]; rfl
            exact Std.TransCmp.eq_trans hxe' h'
          rw [this] at hlt
          simp at hlt
        simp [this, heq]
      rw [hfind] at hval
      simp at hval
      rw [hval]
    · obtain ⟨e, he, rfl⟩ := Option.map_eq_some_iff.1 hval
      exact absurd (by simpa using List.find?_some he) (hno e (List.mem_of_find?_eq_some he))
  · intro hnone
    rcases hcase with ⟨pre, e, post, r1, r2, he, heq, _⟩ | ⟨_, hf⟩
    · rw [List.find?_eq_none] at hnone
      exact absurd (by simpa using heq) (hnone e (by rw [he]; simp))
    · exact hf

example := C28_find_serialised .default demoEnv demoEnv_lawful (.int .u8) .bool [(2, false), (9, true)]
  ⟨fun _ _ => ⟨trivial, trivial⟩, by
    simp only [List.pairwise_cons, List.mem_cons, List.not_mem_nil, or_false, forall_eq]
    exact ⟨by decide, by simp⟩⟩
  (by simp [Ty.Fits, demoEnv]) 9

/-- C28: `find_bytes` on a map with string keys finds what `find` finds when the predicate looks
only at the key's bytes. -/
theorem C28_find_bytes (hE : E.Lawful) (v : Ty ι) (s r : Bytes)
    (l : List (String × v.denote E.X))
    (h : ((Ty.vec (.pair .string v)).codec cfg E).dec s = .ok (l, r)) (pred : Bytes → Ordering)
    (hs : l.Pairwise fun a b => pred a.1.toByteArray.data.toList ≠ .lt →
      pred b.1.toByteArray.data.toList = .gt) :
    let find := MapWalker.new cfg >>= fun w =>
      w.findBytes cfg ((Ty.string : Ty ι).codec cfg E) (v.codec cfg E) pred
    (∃ pre e post r1 r2, l = pre ++ e :: post ∧ pred e.1.toByteArray.data.toList = .eq ∧
        find s = .ok (true, r1) ∧ (v.codec cfg E).dec r1 = .ok (e.2, r2) ∧
        Rd.readN post.length (pairC ((Ty.string : Ty ι).codec cfg E) (v.codec cfg E)).dec r2 =
          .ok (post, r)) ∨
    ((∀ e ∈ l, pred e.1.toByteArray.data.toList ≠ .eq) ∧ find s = .ok (false, r)) := by
  obtain ⟨r0, h1, h2⟩ :=
    vecC_dec_ok (c := pairC ((Ty.string : Ty ι).codec cfg E) (v.codec cfg E)) h
  have := findLoop_readN (key := withLengthPrefixedBytes cfg id)
    (view := fun k : String => k.toByteArray.data.toList)
    (fun s a r h => C24_string cfg E s r a id h)
    ((Ty.string : Ty ι).codec_lawful cfg hE).skip_agree (v.codec_lawful cfg hE).skip_agree
    pred h2 hs
  simp only [MapWalker.new, MapWalker.findBytes, Rd.bind_assoc, Rd.pure_bind]
  rw [Rd.bind_of_ok h1]
  exact this

example := C28_find_bytes .default demoEnv demoEnv_lawful .bool [2, 1, 97, 1, 1, 98, 0, 77] [77] [("a", true), ("b", false)]
  (by decide +kernel) (fun x => cmpBytes x [98]) (by
    simp only [List.pairwise_cons, List.mem_cons, List.not_mem_nil, or_false, forall_eq]
    exact ⟨by decide +kernel, by simp⟩)

/-- C28: the same for a map with keys of any type marked for it. -/
theorem C28_find_bytes_marked (hE : E.Lawful) (k v : Ty ι) (hk : k.lengthPrefixed = true) (s r : Bytes)
    (l : List (k.denote E.X × v.denote E.X))
    (h : ((Ty.vec (.pair k v)).codec cfg E).dec s = .ok (l, r)) (pred : Bytes → Ordering)
    (hs : l.Pairwise fun a b => pred (k.raw a.1) ≠ .lt → pred (k.raw b.1) = .gt) :
    let find := MapWalker.new cfg >>= fun w => w.findBytes cfg (k.codec cfg E) (v.codec cfg E) pred
    (∃ pre e post r1 r2, l = pre ++ e :: post ∧ pred (k.raw e.1) = .eq ∧
        find s = .ok (true, r1) ∧ (v.codec cfg E).dec r1 = .ok (e.2, r2) ∧
        Rd.readN post.length (pairC (k.codec cfg E) (v.codec cfg E)).dec r2 = .ok (post, r)) ∨
    ((∀ e ∈ l, pred (k.raw e.1) ≠ .eq) ∧ find s = .ok (false, r)) := by
  obtain ⟨r0, h1, h2⟩ := vecC_dec_ok (c := pairC (k.codec cfg E) (v.codec cfg E)) h
  have := findLoop_readN (key := withLengthPrefixedBytes cfg id) (view := fun x : k.denote E.X => k.raw x)
    (fun s a r h => C24_marked cfg E k hk s r a id h)
    (k.codec_lawful cfg hE).skip_agree (v.codec_lawful cfg hE).skip_agree pred h2 hs
  simp only [MapWalker.new, MapWalker.findBytes, Rd.bind_assoc, Rd.pure_bind]
  rw [Rd.bind_of_ok h1]
  exact this

example := C28_find_bytes_marked .default demoEnv demoEnv_lawful (.vec (.int .u8)) .bool rfl [2, 1, 2, 0, 1, 5, 1, 77] [77]
  [([2], false), ([5], true)] (by decide +kernel) (fun x => cmpBytes x [5]) (by
    simp only [List.pairwise_cons, List.mem_cons, List.not_mem_nil, or_false, forall_eq]
    exact ⟨by decide +kernel, by simp⟩)

/-- A map from byte vectors to booleans: `[5]` is found. -/
example : (MapWalker.new .default >>= fun w => w.findBytes .default
      ((Ty.vec (.int .u8) : Ty Empty).codec .default demoEnv) ((Ty.bool : Ty Empty).codec .default demoEnv)
      (fun b => compareOn List.length b [5] |>.then (compareOn (·.headD 0 |>.toNat) b [5])))
    [2, 1, 2, 0, 1, 5, 1, 77] = .ok (true, [1, 77]) := by decide

/-- Keys 2, 5, 9: 5 is found in the middle, 6 is not. -/
example :
    let find := fun probe => MapWalker.new .default >>= fun w =>
      w.find ((Ty.int .u8 : Ty Empty).codec .default demoEnv) ((Ty.bool : Ty Empty).codec .default demoEnv)
        (fun key => demoEnv.cmp (.int .u8) key probe)
    find 5 [3, 2, 0, 5, 1, 9, 0, 77] = .ok (true, [1, 9, 0, 77]) ∧
    find 6 [3, 2, 0, 5, 1, 9, 0, 77] = .ok (false, [77]) := by
  decide

/-! ### C29: bulk-encoded vectors -/

/-- C29: asking for a walker over a `Vec` written in bulk is refused, whatever the bytes. -/
theorem C29_bulk_refused (t : Ty ι) (s : Bytes)
    (h : cfg.specialised = true ∧ (t = .bool ∨ t = .uuid ∨ (∃ f, t = .float f) ∨
      ∃ k, t = .int k ∧ k ≠ .usize ∧ k ≠ .isize)) :
    (Ty.vec t).walk cfg s = .err .deserialize := by
  have : vecUsesBulkEncoding cfg t = true := by
    rcases h with ⟨hs, rfl | rfl | ⟨f, rfl⟩ | ⟨k, rfl, h1, h2⟩⟩ <;> simp [vecUsesBulkEncoding, hs]
    cases k <;> simp_all
  simp [Ty.walk, this]

example := C29_bulk_refused .default (.float .f64 : Ty Empty) [1, 0] ⟨rfl, .inr (.inr (.inl ⟨_, rfl⟩))⟩

/-- C29: every `Vec` whose walker is not refused is written element by element: its encoding is the
length followed by the encodings of the elements, and the walker is positioned at the first. -/
theorem C29_accepted_elementwise (t : Ty ι) (s r : Bytes) (w : Walker)
    (h : (Ty.vec t).walk cfg s = .ok (w, r)) :
    (∃ n, w = .seq ⟨n⟩ ∧ readLen cfg s = .ok (n, r)) ∧
    ∀ l, ((Ty.vec t).codec cfg E).toVec l = (do
      let b ← encList (t.codec cfg E).enc l
      pure (encLen cfg l.length ++ b)) := by
  cases hb : vecUsesBulkEncoding cfg t with
  | true => simp [Ty.walk, hb] at h
  | false =>
    constructor
    · simp only [Ty.walk, hb, Bool.false_eq_true, if_false, SeqWalker.new, Rd.bind_assoc,
        Rd.pure_bind] at h
      obtain ⟨n, r1, h1, h2⟩ := Rd.bind_ok.1 h
      simp at h2
      obtain ⟨rfl, rfl⟩ := h2
      exact ⟨n, rfl, h1⟩
    · intro l
      simp only [Codec.toVec, Ty.codec]
      rw [vecOf_elementwise hb]
      rfl

example := C29_accepted_elementwise .default demoEnv .string [2, 1, 97, 0] [1, 97, 0] (.seq ⟨2⟩) (by decide)

/-- C29: the refused vectors are exactly those whose codec is not the element-wise one. -/
theorem C29_refused_iff (t : Ty ι) :
    (∀ s, (Ty.vec t).walk cfg s = .err .deserialize) ↔
      (cfg.specialised = true ∧ (t = .bool ∨ t = .uuid ∨ (∃ f, t = .float f) ∨
        ∃ k, t = .int k ∧ k ≠ .usize ∧ k ≠ .isize)) := by
  constructor
  · intro h
    cases hb : vecUsesBulkEncoding cfg t with
    | false =>
      have := h (encLen cfg 0)
      simp only [Ty.walk, hb, Bool.false_eq_true, if_false, SeqWalker.new, Rd.bind_assoc] at this
      have hr := readLen_encLen cfg (n := 0) (by decide) []
      rw [List.append_nil] at hr
      rw [Rd.bind_of_ok hr] at this
      simp at this
    | true =>
      cases t <;> simp [vecUsesBulkEncoding] at hb ⊢
      · exact hb
      · rename_i k
        refine ⟨hb.1, ?_⟩
        cases k <;> simp at hb ⊢
      · exact hb
      · exact hb
  · intro h s
    exact C29_bulk_refused cfg t s h

example : (Ty.vec (.int .u16) : Ty Empty).walk .default [2, 1, 0, 2, 0] = .err .deserialize ∧
    (Ty.vec (.int .u16) : Ty Empty).walk ⟨false, false⟩ [2, 1, 2] = .ok (.seq ⟨2⟩, [1, 2]) := by
  decide

/-! ### C65: whole traversals -/

/-- C65: the walker handed out is of the kind for the type inside any boxes. It reads as much of a boxed value as of
the value, and nothing of a leaf. -/
theorem C65_walker_kind (t : Ty ι) (s r : Bytes) (w : Walker) (h : t.walk cfg s = .ok (w, r)) :
    w.IsFor t.unboxed ∧ t.unboxed.walk cfg s = .ok (w, r) ∧ (w = .leaf → r = s) := by
  have two : ∀ {α : Type} (f : α → Walker) (m : Rd α), (do return f (← m) : Rd Walker) s = .ok (w, r) → ∃ o, w = f o := by
    intro α f m h
    obtain ⟨o, r1, h1, h2⟩ := Rd.bind_ok.1 h
    simp at h2
    exact ⟨o, h2.1.symm⟩
  induction t with
  | wrap t ih => exact ih h
  | option t =>
    obtain ⟨o, rfl⟩ := two _ _ h
    exact ⟨⟨o, rfl⟩, h, nofun⟩
  | result t e =>
    obtain ⟨o, rfl⟩ := two _ _ h
    exact ⟨⟨o, rfl⟩, h, nofun⟩
  | vec t =>
    have h' := h
    simp only [Ty.walk] at h'
    split at h'
    · cases h'
    · obtain ⟨o, rfl⟩ := two _ _ h'
      exact ⟨⟨o, rfl⟩, h, nofun⟩
  | hashSet | btreeSet | binaryHeap | vector | hashMap | btreeMap =>
    obtain ⟨o, rfl⟩ := two _ _ h
    exact ⟨⟨o, rfl⟩, h, nofun⟩
  | _ =>
    cases h
    exact ⟨rfl, rfl, fun _ => rfl⟩

example := C65_walker_kind .default (.wrap (.option .string) : Ty Empty) [1, 2, 104, 105] [2, 104, 105] (.option ⟨1⟩) (by decide)

example : (Ty.wrap (.wrap (.option .string)) : Ty Empty).walk .default [1, 2, 104, 105] =
    .ok (.option ⟨1⟩, [2, 104, 105]) := by decide

/-- C65: follow any plan — decode, skip or walk into, chosen independently for every value at every
depth — through a serialised value of any type: exactly the parts the plan decodes are seen, in
order, and the reader stops exactly after the value. -/
theorem C65_traversal (hE : E.Lawful) (t : Ty ι) (plan : Plan) (v : t.denote E.X)
    (h1 : t.WF E v) (h2 : t.Fits E v) :
    ∃ b, (t.codec cfg E).toVec v = .ok b ∧ ∀ rest,
      t.traverse cfg E plan (b ++ rest) = .ok (t.seen cfg E plan v, rest) := by
  have hv := Ty.valid_of cfg hE t v h1 h2
  obtain ⟨b, hb⟩ := (t.codec_lawful cfg hE).enc_ok v hv
  exact ⟨b, hb, fun rest => Ty.traverse_enc cfg hE t plan hv hb rest⟩

example := C65_traversal .default demoEnv demoEnv_lawful (.vec (.option .bool))
  (.into (fun i => if i = 0 then .into (fun _ => .decode) 1 else .skip) 2) [some true, none]
  (by simp [Ty.WF]) (by simp [Ty.Fits, demoEnv, Ty.elemBytes])

/-- C65: on any bytes whatever that decode, every plan succeeds and stops where decoding stops. -/
theorem C65_same_position (hE : E.Lawful) (t : Ty ι) (plan : Plan) (s r : Bytes) (v : t.denote E.X)
    (h : (t.codec cfg E).dec s = .ok (v, r)) :
    ∃ seen, t.traverse cfg E plan s = .ok (seen, r) :=
  Ty.traverse_agree cfg hE t plan s v r h

example := C65_same_position .default demoEnv demoEnv_lawful (.vec (.option .bool))
  (.into (fun i => if i = 0 then .into (fun _ => .decode) 1 else .skip) 2) [3, 1, 1, 0, 1, 0, 9] [9]
  [some true, none, some false] rfl

/-- Into a `Vec<Option<bool>>`: into the first element's payload, decode the second, skip the rest. -/
example : (Ty.vec (.option .bool) : Ty Empty).traverse .default demoEnv
    (.into (fun i => if i = 0 then .into (fun _ => .decode) 1 else .decode) 2)
    [3, 1, 1, 0, 1, 0, 9] = .ok ([⟨.bool, true⟩, ⟨.option .bool, none⟩], [9]) := by rfl

/-! ### C66: generic struct and enum walkers -/

/-- Visit fields in order, each with its own type and observer. -/
def fieldVisit : List ((α : Type) × (c : Codec α) × Observer c β) → StructWalker →
    Rd (List β × StructWalker)
  | [], w => pure ([], w)
  | ⟨_, _, o⟩ :: fs, w => do
    let (b, w) ← w.field o.read
    let (bs, w) ← fieldVisit fs w
    pure (b :: bs, w)

/-- Fields decoded one after another, and what the observers should report of them. -/
def fieldViews : List ((α : Type) × (c : Codec α) × Observer c β) → Rd (List β)
  | [] => pure []
  | ⟨_, c, o⟩ :: fs => do
    let a ← c.dec
    let bs ← fieldViews fs
    pure (o.view a :: bs)

/-- C66: a generic struct walker visiting fields in any way sees what decoding them in order gives,
ends at the same place, keeps the revision, and its position counts the fields visited. -/
theorem C66_struct_walker (rev : Nat) (fs : List ((α : Type) × (c : Codec α) × Observer c β))
    (s r : Bytes) (bs : List β) (h : fieldViews fs s = .ok (bs, r)) :
    fieldVisit fs (StructWalker.new rev) s = .ok ((bs, ⟨rev, fs.length⟩), r) := by
  have key : ∀ (fs : List ((α : Type) × (c : Codec α) × Observer c β)) (n : Nat) (s : Bytes)
      (bs : List β), fieldViews fs s = .ok (bs, r) →
      fieldVisit fs ⟨rev, n⟩ s = .ok ((bs, ⟨rev, n + fs.length⟩), r) := by
    intro fs
    induction fs with
    | nil =>
      intro n s bs h
      simp [fieldViews] at h
      simp [fieldVisit, h]
    | cons f fs ih =>
      obtain ⟨α, c, o⟩ := f
      intro n s bs h
      simp only [fieldViews] at h
      obtain ⟨a, r1, h1, h2⟩ := Rd.bind_ok.1 h
      obtain ⟨bs', r2, h3, h4⟩ := Rd.bind_ok.1 h2
      simp at h4
      obtain ⟨rfl, rfl⟩ := h4
      simp only [fieldVisit, StructWalker.field, Rd.bind_assoc, Rd.pure_bind]
      rw [Rd.bind_of_ok (o.follows _ _ _ h1), Rd.bind_of_ok (ih (n + 1) r1 bs' h3)]
      simp [Nat.add_assoc, Nat.add_comm 1]
  have := key fs 0 s bs h
  rw [Nat.zero_add] at this
  exact this

example := C66_struct_walker 3 [⟨_, _, Observer.decode (intC .default .u8)⟩, ⟨_, _, Observer.decode (intC .default .u8)⟩]
  [7, 8, 9] [9] [7, 8] rfl

/-- C66: a generic enum walker reports the `u32` discriminant and leaves the reader at the
payload. -/
theorem C66_enum_walker (rev d : Nat) (hd : d < 2 ^ 32) (payload : Bytes) :
    EnumWalker.new cfg rev (encU32 cfg d ++ payload) = .ok (⟨rev, d⟩, payload) := by
  rw [EnumWalker.new, Rd.bind_of_ok (readU32_encU32 cfg hd _)]; rfl

example := C66_enum_walker .default 3 70000 (by decide) [1, 2]

example : fieldVisit [⟨_, _, Observer.decode (intC .default .u8)⟩, ⟨_, _, Observer.decode (intC .default .u8)⟩]
    (StructWalker.new 3) [7, 8, 9] = .ok (([7, 8], ⟨3, 2⟩), [9]) := by rfl

end Revision
