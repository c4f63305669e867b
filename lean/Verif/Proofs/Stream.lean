import Verif.Spec.Stream
import Verif.Props.Reader

/-! # Lemmas about reading from an arbitrary reader -/

namespace Revision

namespace Stream

/-- What one `read` does to the content. -/
theorem read_content (n : Nat) (hn : n ≠ 0) (s : Stream) :
    match s.read n with
    | (.ok [], _) => s.content = []
    | (.ok (b :: bs), s') => s.content = (b :: bs) ++ s'.content ∧ (b :: bs).length ≤ n
    | (.interrupted, s') => s'.content = s.content
    | (.failed, _) => s.content = [] := by
  cases s with
  | nil => simp [read, content]
  | cons e s =>
    cases e with
    | interrupted => simp [read, content]
    | failed => simp [read, content]
    | data b =>
      cases b with
      | nil => simp [read, content]
      | cons b bs =>
        by_cases h : (b :: bs).length ≤ n
        · simp only [read, if_pos h, content]
          exact ⟨trivial, h⟩
        · simp only [read, if_neg h]
          obtain ⟨m, rfl⟩ : ∃ m, n = m + 1 := ⟨n - 1, by omega⟩
          simp only [List.length_cons] at h
          obtain ⟨c, cs, hc⟩ : ∃ c cs, bs.drop m = c :: cs := by
            cases hd : bs.drop m with
            | nil =>
              have : (bs.drop m).length = 0 := by rw [hd]; rfl
              simp at this; omega
            | cons c cs => exact ⟨c, cs, rfl⟩
          simp only [List.take_succ_cons, List.drop_succ_cons, hc, content, List.cons_append]
          refine ⟨?_, by simp; omega⟩
          rw [← List.cons_append (a := c), ← hc, ← List.append_assoc, List.take_append_drop]

theorem readExact_step (n : Nat) (hn : n ≠ 0) (s : Stream) :
    s.readExact n = match s.read n with
      | (.ok b, s') => if b = [] then .err .io else match s'.readExact (n - b.length) with
        | .ok (b', s'') => .ok (b ++ b', s'')
        | .err e => .err e
        | .panic => .panic
      | (.interrupted, s') => s'.readExact n
      | (.failed, _) => .err .io := by
  rw [readExact, dif_neg hn]
  split <;> rename_i h <;> simp [h] <;> split <;> rfl

theorem takeToEnd_step (buf : Nat → Nat) (n : Nat) (hn : n ≠ 0) (s : Stream) :
    s.takeToEnd buf n = match s.read (min n (max 1 (buf n))) with
      | (.ok b, s') => if b = [] then .ok ([], s') else match s'.takeToEnd buf (n - b.length) with
        | .ok (b', s'') => .ok (b ++ b', s'')
        | .err e => .err e
        | .panic => .panic
      | (.interrupted, s') => s'.takeToEnd buf n
      | (.failed, _) => .err .io := by
  rw [takeToEnd, dif_neg hn]
  split <;> rename_i h <;> simp [h] <;> split <;> rfl

theorem readExact_content (n : Nat) (s : Stream) :
    if n ≤ s.content.length then
      ∃ s', s.readExact n = .ok (s.content.take n, s') ∧ s'.content = s.content.drop n
    else s.readExact n = .err .io := by
  induction hw : s.work using Nat.strongRecOn generalizing n s with
  | _ w ih =>
  subst hw
  by_cases hn : n = 0
  · subst hn; rw [readExact]; simp
  · rw [readExact_step n hn]
    have hc := read_content n hn s
    have hwk := fun h => read_work n hn s h
    have hnil := fun h => read_nil (n := n) (s := s) h
    rcases hr : s.read n with ⟨b | _ | _, s'⟩
    · rw [hr] at hc hwk hnil
      by_cases hb : b = []
      · subst hb
        simp only at hc
        simp [hc, hn]
      · simp only [if_neg hb]
        cases b with
        | nil => exact absurd rfl hb
        | cons b bs =>
        simp only at hc
        obtain ⟨h1, h2⟩ := hc
        have := ih _ (hwk (hnil (by simp))) (n - (b :: bs).length) s' rfl
        rw [h1]
        generalize hb' : b :: bs = B at *
        by_cases hl : n ≤ (B ++ s'.content).length
        · rw [if_pos hl]
          rw [List.length_append] at hl
          rw [if_pos (by omega)] at this
          obtain ⟨s'', e1, e2⟩ := this
          refine ⟨s'', ?_, ?_⟩
          · rw [e1]
            simp only
            rw [List.take_append, List.take_of_length_le h2]
          · rw [e2, List.drop_append, List.drop_of_length_le h2, List.nil_append]
        · rw [if_neg hl]
          rw [List.length_append] at hl
          rw [if_neg (by omega)] at this
          rw [this]
    · rw [hr] at hc hwk hnil
      simp only at hc
      have := ih _ (hwk (hnil (by simp))) n s' rfl
      rw [hc] at this
      exact this
    · rw [hr] at hc
      simp only at hc
      rw [hc]
      simp [hn]

theorem takeToEnd_content (buf : Nat → Nat) (n : Nat) (s : Stream) :
    if n ≤ s.content.length then
      ∃ s', s.takeToEnd buf n = .ok (s.content.take n, s') ∧ s'.content = s.content.drop n
    else s.takeToEnd buf n = .err .io ∨ ∃ s', s.takeToEnd buf n = .ok (s.content, s') := by
  induction hw : s.work using Nat.strongRecOn generalizing n s with
  | _ w ih =>
  subst hw
  by_cases hn : n = 0
  · subst hn; rw [takeToEnd]; simp
  · rw [takeToEnd_step buf n hn]
    have hk : min n (max 1 (buf n)) ≠ 0 := by omega
    have hc := read_content _ hk s
    have hwk := fun h => read_work _ hk s h
    have hnil := fun h => read_nil (n := min n (max 1 (buf n))) (s := s) h
    rcases hr : s.read (min n (max 1 (buf n))) with ⟨b | _ | _, s'⟩
    · rw [hr] at hc hwk hnil
      by_cases hb : b = []
      · subst hb
        simp only at hc
        simp [hc, hn]
      · simp only [if_neg hb]
        cases b with
        | nil => exact absurd rfl hb
        | cons b bs =>
        simp only at hc
        obtain ⟨h1, h2⟩ := hc
        have := ih _ (hwk (hnil (by simp))) (n - (b :: bs).length) s' rfl
        rw [h1]
        generalize hb' : b :: bs = B at *
        by_cases hl : n ≤ (B ++ s'.content).length
        · rw [if_pos hl]
          rw [List.length_append] at hl
          rw [if_pos (by omega)] at this
          obtain ⟨s'', e1, e2⟩ := this
          have h3 : B.length ≤ n := by omega
          refine ⟨s'', ?_, ?_⟩
          · rw [e1]
            simp only
            rw [List.take_append, List.take_of_length_le h3]
          · rw [e2, List.drop_append, List.drop_of_length_le h3, List.nil_append]
        · rw [if_neg hl]
          rw [List.length_append] at hl
          rw [if_neg (by omega)] at this
          rcases this with h | ⟨s'', h⟩
          · exact .inl (by rw [h])
          · exact .inr ⟨s'', by rw [h]⟩
    · rw [hr] at hc hwk hnil
      simp only at hc
      have := ih _ (hwk (hnil (by simp))) n s' rfl
      rw [hc] at this
      exact this
    · rw [hr] at hc
      simp only at hc
      rw [hc]
      simp [hn]

theorem takeExact_content (buf : Nat → Nat) (n : Nat) (s : Stream) :
    if n ≤ s.content.length then
      ∃ s', s.takeExact buf n = .ok (s.content.take n, s') ∧ s'.content = s.content.drop n
    else s.takeExact buf n = .err .io := by
  have := takeToEnd_content buf n s
  unfold takeExact
  split at this
  · rename_i h
    rw [if_pos h]
    obtain ⟨s', e1, e2⟩ := this
    refine ⟨s', ?_, e2⟩
    rw [e1]
    simp [Nat.min_eq_left h]
  · rename_i h
    rw [if_neg h]
    rcases this with e | ⟨s', e⟩
    · rw [e]
    · rw [e]
      simp only
      rw [if_neg (by omega)]

end Stream

namespace Prog

theorem onStream_slice (buf : Nat → Nat) (P : Prog α) : SameAsSlice (P.onStream buf) P.onSlice := by
  induction P with
  | pure a => intro s; exact ⟨s, rfl, rfl⟩
  | fail e => intro s; rfl
  | panic => intro s; rfl
  | exact n f k ih =>
    intro s
    have h := s.readExact_content n
    by_cases hl : n ≤ s.content.length
    · rw [if_pos hl] at h
      obtain ⟨s', e1, e2⟩ := h
      have h1 : (Prog.exact n f k).onSlice s.content = (k (s.content.take n)).onSlice s'.content := by
        rw [e2]
        simp [onSlice, Rd.bind_run, Rd.mapErr, Rd.readExact, Res.mapErr, hl]
      have h2 : (Prog.exact n f k).onStream buf s = (k (s.content.take n)).onStream buf s' := by
        simp [onStream, e1]
      rw [h1, h2]
      exact ih _ s'
    · rw [if_neg hl] at h
      have h1 : (Prog.exact n f k).onSlice s.content = .err (f .io) := by
        simp [onSlice, Rd.bind_run, Rd.mapErr, Rd.readExact, Res.mapErr, hl]
      have h2 : (Prog.exact n f k).onStream buf s = .err (f .io) := by
        simp [onStream, h]
      rw [h1, h2]
  | take n f k ih =>
    intro s
    have h := s.takeExact_content buf n
    by_cases hl : n ≤ s.content.length
    · rw [if_pos hl] at h
      obtain ⟨s', e1, e2⟩ := h
      have h1 : (Prog.take n f k).onSlice s.content = (k (s.content.take n)).onSlice s'.content := by
        rw [e2]
        simp [onSlice, Rd.bind_run, Rd.mapErr, Rd.readExact, Res.mapErr, hl]
      have h2 : (Prog.take n f k).onStream buf s = (k (s.content.take n)).onStream buf s' := by
        simp [onStream, e1]
      rw [h1, h2]
      exact ih _ s'
    · rw [if_neg hl] at h
      have h1 : (Prog.take n f k).onSlice s.content = .err (f .io) := by
        simp [onSlice, Rd.bind_run, Rd.mapErr, Rd.readExact, Res.mapErr, hl]
      have h2 : (Prog.take n f k).onStream buf s = .err (f .io) := by
        simp [onStream, h]
      rw [h1, h2]

/-! ### The programs on a slice are the readers of the model -/

@[simp] theorem onSlice_pure (a : α) : (Pure.pure a : Prog α).onSlice = Pure.pure a := rfl
@[simp] theorem onSlice_pure' (a : α) : (Prog.pure a : Prog α).onSlice = Pure.pure a := rfl
@[simp] theorem onSlice_fail (e : Err) : (Prog.fail e : Prog α).onSlice = Rd.fail e := rfl
@[simp] theorem onSlice_panic : (Prog.panic : Prog α).onSlice = Rd.panic := rfl

@[simp] theorem onSlice_bind (m : Prog α) (f : α → Prog β) :
    (m >>= f).onSlice = (m.onSlice >>= fun a => (f a).onSlice) := by
  change (Prog.bind m f).onSlice = _
  induction m with
  | pure a => rfl
  | fail e => rfl
  | panic => rfl
  | exact n g k ih => simp only [Prog.bind, onSlice, ih, Rd.bind_assoc]
  | take n g k ih => simp only [Prog.bind, onSlice, ih, Rd.bind_assoc]

theorem _root_.Revision.Rd.mapErr_bind (g : Err → Err) (m : Rd α) (f : α → Rd β) :
    (m >>= f).mapErr g = (m.mapErr g >>= fun a => (f a).mapErr g) := by
  ext s : 1
  simp only [Rd.mapErr, Rd.bind_run]
  cases m s with
  | ok p => rfl
  | err e => rfl
  | panic => rfl

theorem _root_.Revision.Rd.mapErr_mapErr (g f : Err → Err) (m : Rd α) :
    (m.mapErr f).mapErr g = m.mapErr fun e => g (f e) := by
  ext s : 1
  simp only [Rd.mapErr]
  cases m s <;> rfl

@[simp] theorem _root_.Revision.Rd.mapErr_id (m : Rd α) : (m.mapErr fun e => e) = m := by
  ext s : 1
  simp only [Rd.mapErr]
  cases m s <;> rfl

@[simp] theorem onSlice_mapErr (g : Err → Err) (m : Prog α) :
    (m.mapErr g).onSlice = m.onSlice.mapErr g := by
  induction m with
  | pure a => rfl
  | fail e => rfl
  | panic => rfl
  | exact n f k ih =>
    simp only [Prog.mapErr, onSlice, Rd.mapErr_bind, Rd.mapErr_mapErr, ih]
  | take n f k ih =>
    simp only [Prog.mapErr, onSlice, Rd.mapErr_bind, Rd.mapErr_mapErr, ih]

@[simp] theorem onSlice_readExact (n : Nat) : (readExact n).onSlice = Rd.readExact n := by
  simp only [readExact, onSlice, Rd.mapErr_id]
  ext s : 1
  simp only [Rd.bind_run]
  cases Rd.readExact n s <;> rfl

@[simp] theorem onSlice_takeExact (n : Nat) : (takeExact n).onSlice = Rd.readExact n :=
  onSlice_readExact n

@[simp] theorem onSlice_readByte : readByte.onSlice = Rd.readByte := by
  simp only [readByte, onSlice, Rd.mapErr_id]
  ext s : 1
  cases s with
  | nil => rfl
  | cons b s => simp [Rd.bind_run, Rd.readExact]

@[simp] theorem onSlice_lift (x : Res α) : (lift x).onSlice = Rd.lift x := by cases x <;> rfl

@[simp] theorem onSlice_alloc (b : Bool) : (alloc b).onSlice = Rd.alloc b := by cases b <;> rfl

@[simp] theorem onSlice_discard (m : Prog α) : m.discard.onSlice = m.onSlice.discard := by
  simp [discard, Rd.discard]

@[simp] theorem onSlice_ite (c : Prop) [Decidable c] (a b : Prog α) :
    (if c then a else b).onSlice = if c then a.onSlice else b.onSlice := by split <;> rfl

@[simp] theorem onSlice_readN (n : Nat) (m : Prog α) : (readN n m).onSlice = Rd.readN n m.onSlice := by
  induction n with
  | zero => rfl
  | succ n ih => simp [readN, Rd.readN, ih]

@[simp] theorem onSlice_repeatN (n : Nat) (m : Prog Unit) :
    (repeatN n m).onSlice = Rd.repeatN n m.onSlice := by
  induction n with
  | zero => rfl
  | succ n ih => simp [repeatN, Rd.repeatN, ih]

@[simp] theorem onSlice_advance (n : Nat) : (advance n).onSlice = Rd.advance n := by
  rw [← C22_net_effect]
  induction n using Nat.strongRecOn with
  | _ n ih =>
  rw [advance, advanceLoop, advanceWith]
  by_cases h : n = 0
  · subst h; simp
  · rw [dif_neg h, dif_neg h]
    simp only [onSlice, Rd.mapErr_id]
    rw [← advanceLoop, ← ih _ (by omega)]

@[simp] theorem onSlice_readLE (w n : Nat) : (readLE w n).onSlice = Revision.readLE w n := by
  simp [readLE, Revision.readLE]

@[simp] theorem onSlice_decodeU64 : decodeU64.onSlice = Revision.decodeU64 := by
  simp [decodeU64, Revision.decodeU64]

@[simp] theorem onSlice_decodeU128 : decodeU128.onSlice = Revision.decodeU128 := by
  simp [decodeU128, Revision.decodeU128]

@[simp] theorem onSlice_decInt (cfg : Cfg) (k : IntTy) :
    (decInt cfg k).onSlice = Revision.decInt cfg k := by
  cases k <;> simp [decInt, Revision.decInt]

@[simp] theorem onSlice_usize (cfg : Cfg) :
    Prog.onSlice (α := BitVec 64) (decInt cfg .usize) = Revision.decInt cfg .usize :=
  onSlice_decInt cfg .usize

@[simp] theorem onSlice_u64 (cfg : Cfg) :
    Prog.onSlice (α := BitVec 64) (decInt cfg .u64) = Revision.decInt cfg .u64 :=
  onSlice_decInt cfg .u64

@[simp] theorem onSlice_u32 (cfg : Cfg) :
    Prog.onSlice (α := BitVec 32) (decInt cfg .u32) = Revision.decInt cfg .u32 :=
  onSlice_decInt cfg .u32

@[simp] theorem onSlice_u8 (cfg : Cfg) :
    Prog.onSlice (α := BitVec 8) (decInt cfg .u8) = Revision.decInt cfg .u8 :=
  onSlice_decInt cfg .u8

@[simp] theorem onSlice_readLen (cfg : Cfg) : (readLen cfg).onSlice = Revision.readLen cfg := by
  simp [readLen, Revision.readLen]

@[simp] theorem onSlice_readU32 (cfg : Cfg) : (readU32 cfg).onSlice = Revision.readU32 cfg := by
  simp [readU32, Revision.readU32]

@[simp] theorem onSlice_readBytes (cfg : Cfg) (cap : Nat → Bool) :
    (readBytes cfg cap).onSlice = Revision.readBytes cfg cap := by
  simp [readBytes, Revision.readBytes]

@[simp] theorem onSlice_takeBytes (cfg : Cfg) (cap : Nat → Bool) :
    (takeBytes cfg cap).onSlice = Revision.readBytes cfg cap := by
  simp [takeBytes, Revision.readBytes]

@[simp] theorem onSlice_decString (cfg : Cfg) (cap : Nat → Bool) :
    (decString cfg cap).onSlice = (stringC cfg cap).dec := by
  simp [decString, stringC]

@[simp] theorem onSlice_decChar : decChar.onSlice = charC.dec := by
  simp only [decChar, charC, Codec.mirror, onSlice_bind, onSlice_readByte, onSlice_ite, onSlice_fail,
    onSlice_readExact]
  congr 1; funext b
  split
  · rfl
  · congr 1; funext rest
    cases fromUtf8 (b :: rest) with
    | ok x => simp only; cases x.toList <;> rfl
    | err e => rfl
    | panic => rfl

@[simp] theorem onSlice_decBulk (cfg : Cfg) (cap : Nat → Bool) (W w : Nat) :
    (decBulk cfg cap W w).onSlice = (bulkC cfg cap W w).dec := by
  simp only [decBulk, bulkC, onSlice_bind, onSlice_readLen, onSlice_ite, onSlice_pure, onSlice_alloc,
    onSlice_takeExact, onSlice_readExact, onSlice_fail]
  ext s : 1
  rw [Rd.bind_run, Rd.bind_run]
  cases h : Revision.readLen cfg s with
  | err e => rfl
  | panic => rfl
  | ok p =>
    obtain ⟨n, r⟩ := p
    simp only
    by_cases h0 : n = 0
    · simp [h0]
    · by_cases h1 : w = 1
      · subst h1
        have hn : n < 2 ^ 64 := by
          obtain ⟨x, r', hx, hp⟩ := Rd.bind_ok.1 h
          simp only [Rd.pure_run, Res.ok.injEq, Prod.mk.injEq] at hp
          rw [← hp.1]
          exact x.isLt
        simp [h0, hn]
      · simp [h0, h1]

end Prog

theorem vecP_slice (cfg : Cfg) (E : Env ι) (t : Ty ι) (m : Prog (t.denote E.X))
    (c : Codec (t.denote E.X)) (h : m.onSlice = c.dec) :
    (vecP cfg E t m).onSlice = (vecOf cfg E t c).dec := by
  have hv : (Prog.decVec cfg (E.cap t) m).onSlice = (vecC cfg (E.cap t) c).dec := by
    simp [Prog.decVec, vecC, h]
  cases t <;> try exact hv
  · simp only [vecP, vecOf]
    split
    · simp [Prog.decBools, boolsC]
    · exact hv
  · simp only [vecP, vecOf]
    split
    · simp
    · exact hv
  · simp only [vecP, vecOf]
    split
    · simp
    · exact hv
  · simp only [vecP, vecOf]
    split
    · simp
    · exact hv

theorem vecSkipP_slice (cfg : Cfg) (E : Env ι) (t : Ty ι) (m : Prog Unit)
    (c : Codec (t.denote E.X)) (h : m.onSlice = c.skip) :
    (vecSkipP cfg t m).onSlice = (vecOf cfg E t c).skip := by
  have hv : (Prog.skipElems cfg m).onSlice = (vecC cfg (E.cap t) c).skip := by
    simp [Prog.skipElems, vecC, h]
  cases t <;> try exact hv
  all_goals
    simp only [vecSkipP, vecOf]
    split
    · simp [Prog.skipBools, boolsC, Prog.skipBulk, bulkC]
    · exact hv

theorem Ty.decP_slice (cfg : Cfg) (E : Env ι) (ext : (i : ι) → Prog (E.X i))
    (hext : ∀ i, (ext i).onSlice = (E.extC i).dec) (t : Ty ι) :
    (t.decP cfg E ext).onSlice = (t.codec cfg E).dec := by
  induction t with
  | ext i => exact hext i
  | vec t ih => exact vecP_slice cfg E t _ _ ih
  | unit => rfl
  | bool => simp [Ty.decP, Ty.codec, Prog.decBool, boolC, Codec.mirror]
  | int k => simp [Ty.decP, Ty.codec, intC, Codec.mirror]
  | float f => simp [Ty.decP, Ty.codec, floatC, Codec.mirror]
  | char => simp [Ty.decP, Ty.codec]
  | string => simp [Ty.decP, Ty.codec]
  | path => simp [Ty.decP, Ty.codec, pathC, Codec.mirror]
  | bytes => simp [Ty.decP, Ty.codec, bytesC]
  | uuid => simp [Ty.decP, Ty.codec, uuidC]
  | duration => simp [Ty.decP, Ty.codec, Prog.decDuration, durationC, Codec.mirror]
  | systemTime => simp [Ty.decP, Ty.codec, Prog.decSystemTime, systemTimeC]
  | notNan f => simp [Ty.decP, Ty.codec, Prog.decNotNan, notNanC, floatC, Codec.mirror]
  | option t ih => simp [Ty.decP, Ty.codec, Prog.decOption, optionC, ih]
  | result t e ih1 ih2 => simp [Ty.decP, Ty.codec, Prog.decResult, resultC, ih1, ih2]
  | bound t ih => simp [Ty.decP, Ty.codec, Prog.decBound, boundC, ih]
  | wrap t ih => simpa [Ty.decP, Ty.codec, wrapC] using ih
  | pair s t ih1 ih2 => simp [Ty.decP, Ty.codec, Prog.decPair, pairC, ih1, ih2]
  | array n t ih => simp [Ty.decP, Ty.codec, arrayC, ih]
  | btreeMap k v ih1 ih2 =>
    simp [Ty.decP, Ty.codec, Prog.readColl, readColl, btreeMapC, collC, pairC, Prog.decPair, ih1, ih2]
  | btreeSet k ih => simp [Ty.decP, Ty.codec, Prog.readColl, readColl, btreeSetC, collC, ih]
  | hashMap k v ih1 ih2 =>
    simp [Ty.decP, Ty.codec, Prog.readColl, readColl, hashMapC, collC, pairC, Prog.decPair, ih1, ih2]
  | hashSet k ih => simp [Ty.decP, Ty.codec, Prog.readColl, readColl, hashSetC, collC, ih]
  | binaryHeap t ih => simp [Ty.decP, Ty.codec, Prog.readColl, readColl, binaryHeapC, collC, ih]
  | vector t ih => simp [Ty.decP, Ty.codec, Prog.readColl, readColl, vectorC, collC, ih]

theorem Ty.skipP_slice (cfg : Cfg) (E : Env ι) (ext : (i : ι) → Prog Unit)
    (hext : ∀ i, (ext i).onSlice = (E.extC i).skip) (t : Ty ι) :
    (t.skipP cfg E ext).onSlice = (t.codec cfg E).skip := by
  induction t with
  | ext i => exact hext i
  | vec t ih => exact vecSkipP_slice cfg E t _ _ ih
  | unit => rfl
  | bool => simp [Ty.skipP, Ty.codec, Prog.decBool, boolC, Codec.mirror]
  | int k => simp [Ty.skipP, Ty.codec, intC, Codec.mirror]
  | float f => simp [Ty.skipP, Ty.codec, floatC, Codec.mirror]
  | char => simp [Ty.skipP, Ty.codec, charC, Codec.mirror]
  | string => simp [Ty.skipP, Ty.codec, stringC, Prog.skipBytes, skipBytes]
  | path => simp [Ty.skipP, Ty.codec, pathC, Codec.mirror]
  | bytes => simp [Ty.skipP, Ty.codec, bytesC, Prog.skipBytes, skipBytes]
  | uuid => simp [Ty.skipP, Ty.codec, uuidC]
  | duration => simp [Ty.skipP, Ty.codec, Prog.decDuration, durationC, Codec.mirror]
  | systemTime => simp [Ty.skipP, Ty.codec, Prog.skipSystemTime, systemTimeC]
  | notNan f => simp [Ty.skipP, Ty.codec, notNanC, floatC, Codec.mirror]
  | option t ih => simp [Ty.skipP, Ty.codec, Prog.skipOption, optionC, ih]
  | result t e ih1 ih2 => simp [Ty.skipP, Ty.codec, Prog.skipResult, resultC, ih1, ih2]
  | bound t ih => simp [Ty.skipP, Ty.codec, Prog.skipBound, boundC, ih]
  | wrap t ih => simpa [Ty.skipP, Ty.codec, wrapC] using ih
  | pair s t ih1 ih2 => simp [Ty.skipP, Ty.codec, Prog.skipPair, pairC, ih1, ih2]
  | array n t ih => simp [Ty.skipP, Ty.codec, arrayC, ih]
  | btreeMap k v ih1 ih2 =>
    simp [Ty.skipP, Ty.codec, Prog.skipElems, btreeMapC, collC, pairC, Prog.skipPair, ih1, ih2]
  | btreeSet k ih => simp [Ty.skipP, Ty.codec, Prog.skipElems, btreeSetC, collC, ih]
  | hashMap k v ih1 ih2 =>
    simp [Ty.skipP, Ty.codec, Prog.skipElems, hashMapC, collC, pairC, Prog.skipPair, ih1, ih2]
  | hashSet k ih => simp [Ty.skipP, Ty.codec, Prog.skipElems, hashSetC, collC, ih]
  | binaryHeap t ih => simp [Ty.skipP, Ty.codec, Prog.skipElems, binaryHeapC, collC, ih]
  | vector t ih => simp [Ty.skipP, Ty.codec, Prog.skipElems, vectorC, collC, ih]

theorem vecOf_check (cfg : Cfg) (E : Env ι) (t : Ty ι) (c : Codec (t.denote E.X)) :
    (vecOf cfg E t c).check = (vecOf cfg E t c).dec.discard := by
  unfold vecOf
  split <;> try split
  all_goals rfl

theorem Ty.checkP_slice (cfg : Cfg) (E : Env ι) (ext : (i : ι) → Prog (E.X i))
    (extCheck : (i : ι) → Prog Unit)
    (hext : ∀ i, (ext i).onSlice = (E.extC i).dec)
    (hcheck : ∀ i, (extCheck i).onSlice = (E.extC i).check) (t : Ty ι) :
    (t.checkP cfg E ext extCheck).onSlice = (t.codec cfg E).check := by
  have hd := Ty.decP_slice cfg E ext hext
  induction t with
  | ext i => exact hcheck i
  | pair s t ih1 ih2 => simp [Ty.checkP, Ty.codec, Prog.skipPair, pairC, ih1, ih2]
  | array n t ih => simp [Ty.checkP, Ty.codec, arrayC, ih]
  | systemTime => simp [Ty.checkP, Ty.codec, Prog.skipSystemTime, systemTimeC]
  | vec t ih =>
    simp only [Ty.checkP, Prog.onSlice_discard, hd]
    exact (vecOf_check cfg E t _).symm
  | _ => simp only [Ty.checkP, Prog.onSlice_discard, hd]; rfl

end Revision
