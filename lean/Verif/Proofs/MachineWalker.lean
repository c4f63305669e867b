import Verif.Spec.Machine
import Verif.Model.MachineWalker
import Verif.Proofs.MachineEnc
import Verif.Proofs.Walk
import Verif.Props.Walk

/-! # Skipping and walking on machines of other widths -/

namespace Revision.Machine

variable {M : Machine} {cfg : Cfg}

theorem skipBytes_agree (cap : Nat → Bool) : (M.readBytes cfg cap).Agree (M.skipBytes cfg) :=
  Rd.Agree.bind_same fun n => Rd.Agree.ite_left
    (fun h => by subst h; intro s a r hs; simp at hs; exact ⟨(), by simp [Rd.advance, hs]⟩)
    fun _ => Rd.Agree.alloc_left (Rd.Agree.readExact_advance n)

theorem vecC_agree (cap : Nat → Bool) {c : Codec α} (hc : c.dec.Agree c.skip) :
    (M.vecC cfg cap c).dec.Agree (M.vecC cfg cap c).skip :=
  Rd.Agree.bind_same fun n => Rd.Agree.ite_left
    (fun h => by subst h; intro s a r hs; simp at hs; exact ⟨(), by simp [Rd.repeatN, hs]⟩)
    fun _ => Rd.Agree.alloc_left (Rd.Agree.readN hc n)

theorem bulkC_agree (cap : Nat → Bool) (W w : Nat) : (M.bulkC cfg cap W w).dec.Agree (M.bulkC cfg cap W w).skip := by
  refine Rd.Agree.bind_same fun n => Rd.Agree.ite_left (fun h => ?_) fun _ => Rd.Agree.bind_same fun k =>
    Rd.Agree.alloc_left (Rd.Agree.bind_pure_left (Rd.Agree.readExact_advance _))
  subst h
  intro s a r hs
  simp at hs
  refine ⟨(), ?_⟩
  have h0 : M.checkedMul 0 w .integerOverflow = .ok 0 := by
    unfold checkedMul
    rw [if_pos (by rw [Nat.zero_mul]; exact Nat.two_pow_pos _), Nat.zero_mul]
  rw [h0, Rd.lift_ok, Rd.pure_bind]
  simp [Rd.advance, hs]

theorem boolsC_agree (cap : Nat → Bool) : (M.boolsC cfg cap).dec.Agree (M.boolsC cfg cap).skip := by
  refine Rd.Agree.bind_same fun n => Rd.Agree.ite_left (fun h => ?_) fun _ => Rd.Agree.alloc_left ?_
  · subst h
    intro s a r hs
    simp at hs
    exact ⟨(), by simp [Rd.advance, hs, divCeil8]⟩
  · intro s a r hs
    obtain ⟨b, r', h1, h2⟩ := Rd.bind_ok.1 hs
    obtain ⟨x, hx⟩ := Rd.Agree.readExact_advance _ _ _ _ h1
    obtain ⟨u, r2, h3, h4⟩ := Rd.bind_ok.1 h2
    cases h4
    unfold Rd.alloc at h3
    split at h3
    · cases h3
      exact ⟨x, hx⟩
    · cases h3

theorem collC_agree (cap : Nat → Bool) {c : Codec α} (hc : c.dec.Agree c.skip) (inv build) :
    (M.collC cfg cap c inv build).dec.Agree (M.collC cfg cap c inv build).skip :=
  Rd.Agree.bind_same fun n => Rd.Agree.alloc_left (Rd.Agree.bind_pure_left (Rd.Agree.readN hc n))

theorem pairC_agree {a : Codec α} {b : Codec β} (ha : a.dec.Agree a.skip) (hb : b.dec.Agree b.skip) :
    (pairC a b).dec.Agree (pairC a b).skip :=
  Rd.Agree.bind ha fun _ _ => Rd.Agree.bind_pure_left hb

variable {ι : Type} {E : Env ι}

theorem vecOf_agree (t : Ty ι) {c : Codec (t.denote E.X)} (hc : c.dec.Agree c.skip) :
    (M.vecOf cfg E t c).dec.Agree (M.vecOf cfg E t c).skip := by
  cases t <;> simp only [vecOf] <;> try exact vecC_agree _ hc
  case bool => split
               · exact boolsC_agree _
               · exact vecC_agree _ hc
  case int k => split
                · exact bulkC_agree _ _ _
                · exact vecC_agree _ hc
  case float n => split
                  · exact bulkC_agree _ _ _
                  · exact vecC_agree _ hc
  case uuid => split
               · exact bulkC_agree _ _ _
               · exact vecC_agree _ hc

theorem codec_agree (hx : ∀ i, (E.extC i).dec.Agree (E.extC i).skip) (t : Ty ι) :
    (M.codec cfg E t).dec.Agree (M.codec cfg E t).skip := by
  induction t with
  | unit => exact unitC_lawful.skip_agree
  | bool => exact boolC_lawful.skip_agree
  | int k => exact (Rd.Agree.refl _).discard
  | float n => exact (floatC_lawful _).skip_agree
  | char => exact charC_lawful.skip_agree
  | string => exact Rd.Agree.bind_lift_left (skipBytes_agree _)
  | path => exact (Rd.Agree.refl _).discard
  | bytes => exact skipBytes_agree _
  | uuid => exact uuidC_lawful.skip_agree
  | duration => exact (durationC_lawful cfg).skip_agree
  | systemTime => exact (systemTimeC_lawful cfg).skip_agree
  | notNan n => exact (notNanC_lawful _).skip_agree
  | option t ih =>
    exact Rd.Agree.bind_same fun _ => Rd.Agree.ite (fun _ => Rd.Agree.pure _ _) fun _ =>
      Rd.Agree.ite (fun _ => Rd.Agree.bind_pure_left ih) fun _ => Rd.Agree.fail_left
  | result t e iht ihe =>
    exact Rd.Agree.bind_same fun _ => Rd.Agree.ite (fun _ => Rd.Agree.bind_pure_left iht.mapErr_left) fun _ =>
      Rd.Agree.ite (fun _ => Rd.Agree.bind_pure_left ihe.mapErr_left) fun _ => Rd.Agree.fail_left
  | bound t ih =>
    exact Rd.Agree.bind_same fun _ => Rd.Agree.ite (fun _ => Rd.Agree.pure _ _) fun _ =>
      Rd.Agree.ite (fun _ => Rd.Agree.bind_pure_left ih.mapErr_left) fun _ =>
      Rd.Agree.ite (fun _ => Rd.Agree.bind_pure_left ih.mapErr_left) fun _ => Rd.Agree.fail_left
  | wrap t ih => exact ih
  | pair s t ihs iht => exact pairC_agree ihs iht
  | array n t ih => exact Rd.Agree.readN ih n
  | vec t ih => exact vecOf_agree t ih
  | btreeMap k v ihk ihv => exact collC_agree _ (pairC_agree ihk ihv) _ _
  | btreeSet k ih => exact collC_agree _ ih _ _
  | hashMap k v ihk ihv => exact collC_agree _ (pairC_agree ihk ihv) _ _
  | hashSet k ih => exact collC_agree _ ih _ _
  | binaryHeap t ih => exact collC_agree _ ih _ _
  | vector t ih => exact collC_agree _ ih _ _
  | ext i => exact hx i

theorem vecC_dec_ok {cap : Nat → Bool} {c : Codec α} {s r : Bytes} {l : List α}
    (h : (M.vecC cfg cap c).dec s = .ok (l, r)) :
    ∃ r1, M.readLen cfg s = .ok (l.length, r1) ∧ Rd.readN l.length c.dec r1 = .ok (l, r) := by
  simp only [vecC] at h
  obtain ⟨n, r1, h1, h2⟩ := Rd.bind_ok.1 h
  by_cases h0 : n = 0
  · subst h0
    simp at h2
    obtain ⟨rfl, rfl⟩ := h2
    exact ⟨r1, h1, rfl⟩
  · rw [if_neg h0] at h2
    cases hc : cap n with
    | false => simp [hc, Rd.alloc, Rd.bind_run] at h2
    | true =>
      rw [hc, Rd.alloc_true, Rd.pure_bind] at h2
      have := readN_length h2
      subst this
      exact ⟨r1, h1, h2⟩

theorem collC_dec_ok {cap : Nat → Bool} {c : Codec α} {inv build} {s r : Bytes} {m : List α}
    (h : (M.collC cfg cap c inv build).dec s = .ok (m, r)) :
    ∃ l r1, m = build l ∧ M.readLen cfg s = .ok (l.length, r1) ∧ Rd.readN l.length c.dec r1 = .ok (l, r) := by
  simp only [collC, readColl] at h
  obtain ⟨n, r1, h1, h2⟩ := Rd.bind_ok.1 h
  cases hc : cap n with
  | false => simp [hc, Rd.alloc, Rd.bind_run] at h2
  | true =>
    rw [hc, Rd.alloc_true, Rd.pure_bind] at h2
    obtain ⟨l, r2, h3, h4⟩ := Rd.bind_ok.1 h2
    cases h4
    have := readN_length h3
    subst this
    exact ⟨l, r1, rfl, h1, h3⟩

theorem Rd.bind_congr2 {m m' : Rd α} {f : α → Rd β} {s s' : Bytes} (h : m s = m' s') : (m >>= f) s = (m' >>= f) s' := by
  rw [Rd.bind_run, Rd.bind_run, h]

theorem readLen_moved {s r : Bytes} {n : Nat} (h : M.readLen cfg s = .ok (n, r)) :
    n < 2 ^ M.bits ∧ n < 2 ^ 64 ∧ Revision.readLen cfg (encLen cfg n ++ r) = .ok (n, r) := by
  obtain ⟨x, r1, h1, h2⟩ := Rd.bind_ok.1 h
  obtain ⟨y, r2, h3, h4⟩ := Rd.bind_ok.1 h1
  cases h2
  cases h4
  have h64 : (M.asUsize y).toNat < 2 ^ 64 := (M.asUsize y).isLt
  refine ⟨?_, h64, readLen_encLen cfg h64 _⟩
  unfold asUsize
  rw [BitVec.toNat_ofNat]
  exact Nat.lt_of_le_of_lt (Nat.mod_le _ _) (Nat.mod_lt _ (Nat.two_pow_pos _))

theorem readBytes_moved {s r : Bytes} {n : Nat} (h : M.readLen cfg s = .ok (n, r)) (cap : Nat → Bool) :
    M.readBytes cfg cap s = Revision.readBytes cfg cap (encLen cfg n ++ r) := by
  unfold readBytes Revision.readBytes
  rw [Rd.bind_of_ok h, Rd.bind_of_ok (readLen_moved h).2.2]

theorem withBytes_moved {s r : Bytes} {n : Nat} (h : M.readLen cfg s = .ok (n, r)) (f : Bytes → β) :
    M.withBytes cfg f s = withLengthPrefixedBytes cfg f (encLen cfg n ++ r) := by
  unfold withBytes withLengthPrefixedBytes
  rw [Rd.bind_of_ok h, Rd.bind_of_ok (readLen_moved h).2.2]

theorem vecByte_moved {s r : Bytes} {n : Nat} (h : M.readLen cfg s = .ok (n, r)) (k : IntTy) (hk : k = .u8 ∨ k = .i8) :
    (M.codec cfg E (.vec (.int k))).dec s = ((Ty.vec (.int k)).codec cfg E).dec (encLen cfg n ++ r) := by
  have hi : M.intC cfg k = Revision.intC cfg k := by rcases hk with rfl | rfl <;> rfl
  obtain ⟨hn, h64, h'⟩ := readLen_moved h
  simp only [codec, Ty.codec, vecOf, Revision.vecOf]
  split
  · have h1 : k.bits / 8 = 1 := by rcases hk with rfl | rfl <;> rfl
    simp only [bulkC, Revision.bulkC, h1]
    rw [Rd.bind_of_ok h, Rd.bind_of_ok h']
    by_cases h0 : n = 0
    · rw [if_pos h0, if_pos h0]
    · rw [if_neg h0, if_neg h0]
      have hm : M.checkedMul n 1 .integerOverflow = .ok (n * 1) := if_pos (by omega)
      rw [hm, Rd.lift_ok, Rd.pure_bind, if_pos (by omega)]
  · simp only [vecC, Revision.vecC, hi]
    rw [Rd.bind_of_ok h, Rd.bind_of_ok h']

theorem prefixed_moved : ∀ {t : Ty ι} (_ : t.lengthPrefixed = true) {s r : Bytes} {n : Nat} (_ : M.readLen cfg s = .ok (n, r)),
    (M.codec cfg E t).dec s = (t.codec cfg E).dec (encLen cfg n ++ r)
  | .string, _, _, _, _, h => Rd.bind_congr2 (readBytes_moved h _)
  | .path, _, _, _, _, h => Rd.bind_congr2 (Rd.bind_congr2 (readBytes_moved h _))
  | .bytes, _, _, _, _, h => readBytes_moved h _
  | .vec (.int .u8), _, _, _, _, h => vecByte_moved h .u8 (.inl rfl)
  | .vec (.int .i8), _, _, _, _, h => vecByte_moved h .i8 (.inr rfl)
  | .wrap t, ht, _, _, _, h => prefixed_moved (t := t) ht h

theorem prefixed_len : ∀ {t : Ty ι} (_ : t.lengthPrefixed = true) {s r : Bytes} {v : t.denote E.X}
    (_ : (M.codec cfg E t).dec s = .ok (v, r)), ∃ n r1, M.readLen cfg s = .ok (n, r1)
  | .string, _, s, r, v, h => by
    obtain ⟨b, r1, h1, h2⟩ := Rd.bind_ok.1 h
    obtain ⟨n, r2, h3, h4⟩ := Rd.bind_ok.1 h1
    exact ⟨n, r2, h3⟩
  | .path, _, s, r, v, h => by
    obtain ⟨b, r1, h1, h2⟩ := Rd.bind_ok.1 h
    obtain ⟨n, r2, h3, h4⟩ := Rd.bind_ok.1 h1
    obtain ⟨n, r2, h3, h4⟩ := Rd.bind_ok.1 h3
    exact ⟨n, r2, h3⟩
  | .bytes, _, s, r, v, h => by
    obtain ⟨n, r2, h3, h4⟩ := Rd.bind_ok.1 h
    exact ⟨n, r2, h3⟩
  | .vec (.int .u8), _, s, r, v, h => vecLen .u8 h
  | .vec (.int .i8), _, s, r, v, h => vecLen .i8 h
  | .wrap t, ht, _, _, _, h => prefixed_len (t := t) ht h
where
  vecLen (k : IntTy) {s r : Bytes} {v : List (BitVec k.bits)} (h : (M.codec cfg E (.vec (.int k))).dec s = .ok (v, r)) :
      ∃ n r1, M.readLen cfg s = .ok (n, r1) := by
    simp only [codec, vecOf] at h
    split at h <;>
    · obtain ⟨n, r2, h3, h4⟩ := Rd.bind_ok.1 h
      exact ⟨n, r2, h3⟩

theorem vecOf_skipS (t : Ty ι) {c : Codec (t.denote E.X)} (hc : c.skipS = c.skip) :
    (M.vecOf cfg E t c).skipS = (M.vecOf cfg E t c).skip := by
  cases t <;> simp only [vecOf] <;> (try split) <;> simp only [vecC, bulkC, boolsC, Rd.consume_eq, hc]

theorem codec_skipS (hx : ∀ i, (E.extC i).skipS = (E.extC i).skip) (t : Ty ι) :
    (M.codec cfg E t).skipS = (M.codec cfg E t).skip := by
  induction t with
  | unit => exact unitC_lawful.skipS_eq
  | bool => exact boolC_lawful.skipS_eq
  | int k => rfl
  | float n => exact (floatC_lawful _).skipS_eq
  | char => exact charC_lawful.skipS_eq
  | string => simp only [codec, stringC, skipBytesS, skipBytes, Rd.consume_eq]
  | path => rfl
  | bytes => simp only [codec, bytesC, skipBytesS, skipBytes, Rd.consume_eq]
  | uuid => exact uuidC_lawful.skipS_eq
  | duration => exact (durationC_lawful cfg).skipS_eq
  | systemTime => exact (systemTimeC_lawful cfg).skipS_eq
  | notNan n => exact (notNanC_lawful _).skipS_eq
  | option t ih => simp only [codec, optionC, ih]
  | result t e iht ihe => simp only [codec, resultC, iht, ihe]
  | bound t ih => simp only [codec, boundC, ih]
  | wrap t ih => exact ih
  | pair s t ihs iht => simp only [codec, pairC, ihs, iht]
  | array n t ih => simp only [codec, arrayC, ih]
  | vec t ih => exact vecOf_skipS t ih
  | btreeMap k v ihk ihv => simp only [codec, collC, pairC, ihk, ihv]
  | btreeSet k ih => simp only [codec, collC, ih]
  | hashMap k v ihk ihv => simp only [codec, collC, pairC, ihk, ihv]
  | hashSet k ih => simp only [codec, collC, ih]
  | binaryHeap t ih => simp only [codec, collC, ih]
  | vector t ih => simp only [codec, collC, ih]
  | ext i => exact hx i

theorem codec_checks (hx : ∀ i, (E.extC i).Checks) (t : Ty ι) (ht : t.checkExact = true) : (M.codec cfg E t).Checks := by
  induction t with
  | systemTime => simp [Ty.checkExact] at ht
  | pair s t ihs iht =>
    simp [Ty.checkExact] at ht
    exact pairC_checks (ihs ht.1) (iht ht.2)
  | array n t ih => exact arrayC_checks n (ih ht)
  | vec t => cases t <;> simp only [codec, vecOf] <;> (try split) <;> exact Rd.SameAccept.discard _
  | ext i => exact hx i
  | _ => exact Rd.SameAccept.discard _

theorem program_checks [DecidableEq ι] (P : Program ι) (I : Impls P.kind) (hP : ∀ i, (P.body i).HandChecks) (n : Nat) (i : ι) :
    (M.program cfg P I n i).Checks := by
  cases n with
  | zero => exact fun s r => ⟨nofun, nofun⟩
  | succ n =>
    suffices h : ∀ {k : Kind} (b : Body P.kind k), b.HandChecks →
        (M.body cfg I n (M.program cfg P I n) (P.history i) b).Checks from h _ (hP i)
    intro k b hb
    cases b with
    | struct fs => exact Rd.SameAccept.discard _
    | «enum» vs => exact Rd.SameAccept.discard _
    | foreign x => exact hb

end Revision.Machine
