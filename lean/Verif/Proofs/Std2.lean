import Verif.Proofs.Std

/-! Helper lemmas: products, sums, vectors. -/

namespace Revision

theorem Rd.discard_eq (m : Rd α) : m.discard = (m >>= fun _ => pure ()) := rfl

theorem Rd.Agree.trans_discard {d : Rd α} {k : Rd β} (h : d.Agree k) : d.discard.Agree k :=
  h.discard_left

/-! ### Products -/

theorem unitC_lawful : unitC.Lawful :=
  Codec.mirror_lawful (fun _ _ => ⟨_, rfl⟩)
    (by intro v b _ h t; simp at h; subst h; rfl)
    (Rd.Framed.pure _) Rd.Yields.trivial

theorem unitC_checks : unitC.Checks := Codec.mirror_checks
theorem unitC_panicFree : unitC.PanicFree := Codec.mirror_panicFree (Rd.NoPanic.pure _)

theorem pairC_lawful {a : Codec α} {b : Codec β} (ha : a.Lawful) (hb : b.Lawful) :
    (pairC a b).Lawful where
  enc_ok := by
    rintro ⟨x, y⟩ ⟨hx, hy⟩
    obtain ⟨p, hp⟩ := ha.enc_ok x hx
    obtain ⟨q, hq⟩ := hb.enc_ok y hy
    exact ⟨p ++ q, by simp [pairC, hp, hq]⟩
  round_trip := by
    rintro ⟨x, y⟩ e ⟨hx, hy⟩ h t
    simp only [pairC, Res.bind_eq_ok] at h
    obtain ⟨p, hp, q, hq, h⟩ := h
    simp at h
    subst h
    simp only [pairC]
    rw [List.append_assoc, Rd.bind_of_ok (ha.round_trip x p hx hp _),
      Rd.bind_of_ok (hb.round_trip y q hy hq _)]
    rfl
  framed := Rd.Framed.bind ha.framed fun _ => Rd.Framed.bind hb.framed fun _ => Rd.Framed.pure _
  sound := Rd.Yields.bind ha.sound fun _ hx => Rd.Yields.bind hb.sound fun _ hy =>
    Rd.Yields.pure ⟨hx, hy⟩
  skip_agree := Rd.Agree.bind ha.skip_agree fun _ _ => Rd.Agree.bind_pure_left hb.skip_agree
  skip_framed := Rd.Framed.bind ha.skip_framed fun _ => hb.skip_framed
  skipS_eq := by simp only [pairC, ha.skipS_eq, hb.skipS_eq]

theorem pairC_checks {a : Codec α} {b : Codec β} (ha : a.Checks) (hb : b.Checks) :
    (pairC a b).Checks :=
  Rd.SameAccept.bind ha fun _ => Rd.SameAccept.map hb

theorem pairC_panicFree {a : Codec α} {b : Codec β} (ha : a.PanicFree) (hb : b.PanicFree) :
    (pairC a b).PanicFree where
  dec := Rd.NoPanic.bind ha.dec fun _ => Rd.NoPanic.bind hb.dec fun _ => Rd.NoPanic.pure _
  skip := Rd.NoPanic.bind ha.skip fun _ => hb.skip
  check := Rd.NoPanic.bind ha.check fun _ => hb.check

theorem arrayC_lawful (n : Nat) {c : Codec α} (hc : c.Lawful) : (arrayC n c).Lawful where
  enc_ok := fun l hl => encList_ok fun a ha => hc.enc_ok a (hl.2 a ha)
  round_trip := by
    rintro l b ⟨hl, hv⟩ h t
    subst hl
    exact Rd.readN_append (fun a ha b t h => hc.round_trip a b (hv a ha) h t) h t
  framed := Rd.Framed.readN hc.framed n
  sound := Rd.Yields.readN hc.sound n
  skip_agree := Rd.Agree.readN hc.skip_agree n
  skip_framed := Rd.Framed.repeatN hc.skip_framed n
  skipS_eq := by simp only [arrayC, hc.skipS_eq]

theorem arrayC_checks (n : Nat) {c : Codec α} (hc : c.Checks) : (arrayC n c).Checks :=
  Rd.SameAccept.readN hc n

theorem arrayC_panicFree (n : Nat) {c : Codec α} (hc : c.PanicFree) : (arrayC n c).PanicFree :=
  ⟨Rd.NoPanic.readN hc.dec n, Rd.NoPanic.repeatN hc.skip n, Rd.NoPanic.repeatN hc.check n⟩

theorem wrapC_lawful {c : Codec α} (hc : c.Lawful) : (wrapC c).Lawful where
  enc_ok := hc.enc_ok
  round_trip := hc.round_trip
  framed := hc.framed
  sound := hc.sound
  skip_agree := hc.skip_agree
  skip_framed := hc.skip_framed
  skipS_eq := hc.skipS_eq

theorem wrapC_checks {c : Codec α} : (wrapC c).Checks := Rd.SameAccept.discard _

theorem wrapC_panicFree {c : Codec α} (hc : c.PanicFree) : (wrapC c).PanicFree :=
  ⟨hc.dec, hc.skip, hc.dec.discard⟩

/-! ### Sums -/

theorem optionC_lawful (cfg : Cfg) {c : Codec α} (hc : c.Lawful) : (optionC cfg c).Lawful where
  enc_ok := by
    rintro (_ | a) hv
    · exact ⟨_, rfl⟩
    · obtain ⟨b, hb⟩ := hc.enc_ok a hv
      exact ⟨encInt cfg .u8 1 ++ b, by simp [optionC, hb]⟩
  round_trip := by
    rintro (_ | a) b hv h t
    · simp only [optionC, Res.ok.injEq] at h
      subst h
      simp only [optionC]
      rw [Rd.bind_of_ok (decInt_encInt cfg .u8 0 t)]
      rfl
    · simp only [optionC, Res.bind_eq_ok] at h
      obtain ⟨x, hx, h⟩ := h
      simp only [Res.pure_def, Res.ok.injEq] at h
      subst h
      simp only [optionC]
      rw [List.append_assoc, Rd.bind_of_ok (decInt_encInt cfg .u8 1 _)]
      rw [if_neg (by decide), if_pos rfl, Rd.bind_of_ok (hc.round_trip a x hv hx t)]
      rfl
  framed := Rd.Framed.bind (decInt_framed cfg _) fun _ => Rd.Framed.ite (Rd.Framed.pure _)
    (Rd.Framed.ite (Rd.Framed.bind hc.framed fun _ => Rd.Framed.pure _) (Rd.Framed.fail _))
  sound := Rd.Yields.bind_any fun _ => Rd.Yields.ite (fun _ => Rd.Yields.pure trivial) fun _ =>
    Rd.Yields.ite (fun _ => Rd.Yields.bind hc.sound fun _ h => Rd.Yields.pure h)
      fun _ => Rd.Yields.fail _
  skip_agree := Rd.Agree.bind_same fun _ => Rd.Agree.ite (fun _ => Rd.Agree.pure _ _) fun _ =>
    Rd.Agree.ite (fun _ => Rd.Agree.bind_pure_left hc.skip_agree) fun _ => Rd.Agree.fail_left
  skip_framed := Rd.Framed.bind (decInt_framed cfg _) fun _ => Rd.Framed.ite (Rd.Framed.pure _)
    (Rd.Framed.ite hc.skip_framed (Rd.Framed.fail _))
  skipS_eq := by simp only [optionC, hc.skipS_eq]

theorem optionC_checks (cfg : Cfg) {c : Codec α} : (optionC cfg c).Checks :=
  Rd.SameAccept.discard _

theorem optionC_panicFree (cfg : Cfg) {c : Codec α} (hc : c.PanicFree) :
    (optionC cfg c).PanicFree := by
  have hd : (optionC cfg c).dec.NoPanic := Rd.NoPanic.bind (decInt_noPanic cfg _) fun _ =>
    Rd.NoPanic.ite (Rd.NoPanic.pure _) (Rd.NoPanic.ite
      (Rd.NoPanic.bind hc.dec fun _ => Rd.NoPanic.pure _) (Rd.NoPanic.fail _))
  exact ⟨hd, Rd.NoPanic.bind (decInt_noPanic cfg _) fun _ => Rd.NoPanic.ite (Rd.NoPanic.pure _)
    (Rd.NoPanic.ite hc.skip (Rd.NoPanic.fail _)), hd.discard⟩

theorem resultC_lawful (cfg : Cfg) {c : Codec α} {d : Codec β} (hc : c.Lawful) (hd : d.Lawful) :
    (resultC cfg c d).Lawful where
  enc_ok := by
    rintro (e | a) hv
    · obtain ⟨b, hb⟩ := hd.enc_ok e hv
      exact ⟨encU32 cfg 1 ++ b, by simp [resultC, hb]⟩
    · obtain ⟨b, hb⟩ := hc.enc_ok a hv
      exact ⟨encU32 cfg 0 ++ b, by simp [resultC, hb]⟩
  round_trip := by
    rintro (e | a) b hv h t
    · simp only [resultC, Res.bind_eq_ok] at h
      obtain ⟨x, hx, h⟩ := h
      simp at h
      subst h
      simp only [resultC]
      rw [List.append_assoc, Rd.bind_of_ok (readU32_encU32 cfg (by decide) _)]
      rw [if_neg (by decide), if_pos rfl,
        Rd.bind_of_ok (Rd.mapErr_ok.2 (hd.round_trip e x hv hx t))]
      rfl
    · simp only [resultC, Res.bind_eq_ok] at h
      obtain ⟨x, hx, h⟩ := h
      simp at h
      subst h
      simp only [resultC]
      rw [List.append_assoc, Rd.bind_of_ok (readU32_encU32 cfg (by decide) _)]
      rw [if_pos rfl, Rd.bind_of_ok (Rd.mapErr_ok.2 (hc.round_trip a x hv hx t))]
      rfl
  framed := Rd.Framed.bind (readU32_framed cfg) fun _ => Rd.Framed.ite
    (Rd.Framed.bind (hc.framed.mapErr _) fun _ => Rd.Framed.pure _)
    (Rd.Framed.ite (Rd.Framed.bind (hd.framed.mapErr _) fun _ => Rd.Framed.pure _)
      (Rd.Framed.fail _))
  sound := Rd.Yields.bind_any fun _ => Rd.Yields.ite
    (fun _ => Rd.Yields.bind hc.sound.mapErr fun _ h => Rd.Yields.pure h) fun _ =>
    Rd.Yields.ite (fun _ => Rd.Yields.bind hd.sound.mapErr fun _ h => Rd.Yields.pure h)
      fun _ => Rd.Yields.fail _
  skip_agree := Rd.Agree.bind_same fun _ => Rd.Agree.ite
    (fun _ => Rd.Agree.bind_pure_left hc.skip_agree.mapErr_left) fun _ =>
    Rd.Agree.ite (fun _ => Rd.Agree.bind_pure_left hd.skip_agree.mapErr_left)
      fun _ => Rd.Agree.fail_left
  skip_framed := Rd.Framed.bind (readU32_framed cfg) fun _ => Rd.Framed.ite hc.skip_framed
    (Rd.Framed.ite hd.skip_framed (Rd.Framed.fail _))
  skipS_eq := by simp only [resultC, hc.skipS_eq, hd.skipS_eq]

theorem resultC_checks (cfg : Cfg) {c : Codec α} {d : Codec β} : (resultC cfg c d).Checks :=
  Rd.SameAccept.discard _

theorem resultC_panicFree (cfg : Cfg) {c : Codec α} {d : Codec β} (hc : c.PanicFree)
    (hd : d.PanicFree) : (resultC cfg c d).PanicFree := by
  have h : (resultC cfg c d).dec.NoPanic := Rd.NoPanic.bind (readU32_noPanic cfg) fun _ =>
    Rd.NoPanic.ite (Rd.NoPanic.bind (hc.dec.mapErr _) fun _ => Rd.NoPanic.pure _)
      (Rd.NoPanic.ite (Rd.NoPanic.bind (hd.dec.mapErr _) fun _ => Rd.NoPanic.pure _)
        (Rd.NoPanic.fail _))
  exact ⟨h, Rd.NoPanic.bind (readU32_noPanic cfg) fun _ => Rd.NoPanic.ite hc.skip
    (Rd.NoPanic.ite hd.skip (Rd.NoPanic.fail _)), h.discard⟩

theorem boundC_lawful (cfg : Cfg) {c : Codec α} (hc : c.Lawful) : (boundC cfg c).Lawful where
  enc_ok := by
    rintro (_ | a | a) hv
    · exact ⟨_, rfl⟩
    · obtain ⟨b, hb⟩ := hc.enc_ok a hv
      exact ⟨encU32 cfg 1 ++ b, by simp [boundC, hb]⟩
    · obtain ⟨b, hb⟩ := hc.enc_ok a hv
      exact ⟨encU32 cfg 2 ++ b, by simp [boundC, hb]⟩
  round_trip := by
    rintro (_ | a | a) b hv h t
    · simp [boundC] at h
      subst h
      simp only [boundC]
      rw [Rd.bind_of_ok (readU32_encU32 cfg (by decide) _)]
      rfl
    · simp only [boundC, Res.bind_eq_ok] at h
      obtain ⟨x, hx, h⟩ := h
      simp at h
      subst h
      simp only [boundC]
      rw [List.append_assoc, Rd.bind_of_ok (readU32_encU32 cfg (by decide) _)]
      rw [if_neg (by decide), if_pos rfl,
        Rd.bind_of_ok (Rd.mapErr_ok.2 (hc.round_trip a x hv hx t))]
      rfl
    · simp only [boundC, Res.bind_eq_ok] at h
      obtain ⟨x, hx, h⟩ := h
      simp at h
      subst h
      simp only [boundC]
      rw [List.append_assoc, Rd.bind_of_ok (readU32_encU32 cfg (by decide) _)]
      rw [if_neg (by decide), if_neg (by decide), if_pos rfl,
        Rd.bind_of_ok (Rd.mapErr_ok.2 (hc.round_trip a x hv hx t))]
      rfl
  framed := Rd.Framed.bind (readU32_framed cfg) fun _ => Rd.Framed.ite (Rd.Framed.pure _)
    (Rd.Framed.ite (Rd.Framed.bind (hc.framed.mapErr _) fun _ => Rd.Framed.pure _)
    (Rd.Framed.ite (Rd.Framed.bind (hc.framed.mapErr _) fun _ => Rd.Framed.pure _)
      (Rd.Framed.fail _)))
  sound := Rd.Yields.bind_any fun _ => Rd.Yields.ite (fun _ => Rd.Yields.pure trivial) fun _ =>
    Rd.Yields.ite (fun _ => Rd.Yields.bind hc.sound.mapErr fun _ h => Rd.Yields.pure h) fun _ =>
    Rd.Yields.ite (fun _ => Rd.Yields.bind hc.sound.mapErr fun _ h => Rd.Yields.pure h)
      fun _ => Rd.Yields.fail _
  skip_agree := Rd.Agree.bind_same fun _ => Rd.Agree.ite (fun _ => Rd.Agree.pure _ _) fun _ =>
    Rd.Agree.ite (fun _ => Rd.Agree.bind_pure_left hc.skip_agree.mapErr_left) fun _ =>
    Rd.Agree.ite (fun _ => Rd.Agree.bind_pure_left hc.skip_agree.mapErr_left)
      fun _ => Rd.Agree.fail_left
  skip_framed := Rd.Framed.bind (readU32_framed cfg) fun _ => Rd.Framed.ite (Rd.Framed.pure _)
    (Rd.Framed.ite hc.skip_framed (Rd.Framed.ite hc.skip_framed (Rd.Framed.fail _)))
  skipS_eq := by simp only [boundC, hc.skipS_eq]

theorem boundC_checks (cfg : Cfg) {c : Codec α} : (boundC cfg c).Checks :=
  Rd.SameAccept.discard _

theorem boundC_panicFree (cfg : Cfg) {c : Codec α} (hc : c.PanicFree) :
    (boundC cfg c).PanicFree := by
  have h : (boundC cfg c).dec.NoPanic := Rd.NoPanic.bind (readU32_noPanic cfg) fun _ =>
    Rd.NoPanic.ite (Rd.NoPanic.pure _)
      (Rd.NoPanic.ite (Rd.NoPanic.bind (hc.dec.mapErr _) fun _ => Rd.NoPanic.pure _)
      (Rd.NoPanic.ite (Rd.NoPanic.bind (hc.dec.mapErr _) fun _ => Rd.NoPanic.pure _)
        (Rd.NoPanic.fail _)))
  exact ⟨h, Rd.NoPanic.bind (readU32_noPanic cfg) fun _ => Rd.NoPanic.ite (Rd.NoPanic.pure _)
    (Rd.NoPanic.ite hc.skip (Rd.NoPanic.ite hc.skip (Rd.NoPanic.fail _))), h.discard⟩

/-! ### Element-wise vectors -/

theorem vecC_lawful (cfg : Cfg) (cap) {c : Codec α} (hc : c.Lawful) :
    (vecC cfg cap c).Lawful where
  enc_ok := by
    rintro l ⟨h1, h2, h3⟩
    obtain ⟨b, hb⟩ := encList_ok fun a ha => hc.enc_ok a (h3 a ha)
    exact ⟨encLen cfg l.length ++ b, by simp [vecC, hb]⟩
  round_trip := by
    rintro l b ⟨h1, h2, h3⟩ h t
    simp only [vecC, Res.bind_eq_ok] at h
    obtain ⟨x, hx, h⟩ := h
    simp at h
    subst h
    simp only [vecC]
    rw [List.append_assoc, Rd.bind_of_ok (readLen_encLen cfg h1 _)]
    by_cases hl : l = []
    · subst hl
      simp [encList] at hx
      subst hx
      simp
    · rw [if_neg (by simpa using hl), h2 hl]
      exact Rd.readN_append (fun a ha b t h => hc.round_trip a b (h3 a ha) h t) hx t
  framed := Rd.Framed.bind (readLen_framed cfg) fun n => Rd.Framed.ite (Rd.Framed.pure _)
    (Rd.Framed.bind (Rd.Framed.alloc _) fun _ => Rd.Framed.readN hc.framed n)
  sound := by
    refine Rd.Yields.bind (readLen_yields cfg) fun n hn => Rd.Yields.ite
      (fun h0 => Rd.Yields.pure ⟨by simp, by simp, by simp⟩) fun h0 =>
      Rd.Yields.alloc_bind fun hcap => (Rd.Yields.readN hc.sound n).mono ?_
    rintro l ⟨rfl, hl⟩
    exact ⟨hn, fun _ => hcap, hl⟩
  skip_agree := Rd.Agree.bind_same fun n => Rd.Agree.ite_left
    (fun h => by subst h; exact Rd.Agree.pure _ _)
    fun _ => Rd.Agree.alloc_left (Rd.Agree.readN hc.skip_agree n)
  skip_framed := Rd.Framed.bind (readLen_framed cfg) fun n => Rd.Framed.repeatN hc.skip_framed n
  skipS_eq := by simp only [vecC, hc.skipS_eq]

theorem vecC_checks (cfg : Cfg) (cap) {c : Codec α} : (vecC cfg cap c).Checks :=
  Rd.SameAccept.discard _

theorem vecC_panicFree (cfg : Cfg) {cap} (hcap : ∀ n, cap n = true) {c : Codec α}
    (hc : c.PanicFree) : (vecC cfg cap c).PanicFree := by
  have h : (vecC cfg cap c).dec.NoPanic := Rd.NoPanic.bind (readLen_noPanic cfg) fun n =>
    Rd.NoPanic.ite (Rd.NoPanic.pure _) (Rd.NoPanic.bind (Rd.NoPanic.alloc (hcap _))
      fun _ => Rd.NoPanic.readN hc.dec n)
  exact ⟨h, Rd.NoPanic.bind (readLen_noPanic cfg) fun n => Rd.NoPanic.repeatN hc.skip n, h.discard⟩

/-! ### Bulk vectors -/

@[simp] theorem splitN_length (w n : Nat) (b : Bytes) : (splitN w n b).length = n := by
  induction n generalizing b with
  | zero => rfl
  | succ n ih => simp [splitN, ih]

theorem flatMap_leBytes_length {W : Nat} (w : Nat) (l : List (BitVec W)) :
    (l.flatMap fun v => leBytes w v.toNat).length = l.length * w := by
  induction l with
  | nil => simp
  | cons v l ih => simp [ih, Nat.add_mul, Nat.add_comm]

theorem splitN_flatMap {W w : Nat} (hW : W = 8 * w) (l : List (BitVec W)) :
    (splitN w l.length (l.flatMap fun v => leBytes w v.toNat)).map
      (fun e => BitVec.ofNat W (leVal e)) = l := by
  induction l with
  | nil => rfl
  | cons v l ih =>
    simp only [List.flatMap_cons, List.length_cons, splitN, List.map_cons]
    rw [List.take_left' (by simp), List.drop_left' (by simp), ih, leVal_leBytes, pow256, ← hW]
    congr 1
    apply BitVec.eq_of_toNat_eq
    simp

theorem bulkC_lawful (cfg : Cfg) (cap) {W w : Nat} (hW : W = 8 * w) :
    (bulkC cfg cap W w).Lawful where
  enc_ok := fun _ _ => ⟨_, rfl⟩
  round_trip := by
    rintro l b ⟨h1, h2, h3⟩ h t
    simp only [bulkC, Res.ok.injEq] at h
    subst h
    simp only [bulkC]
    rw [List.append_assoc, Rd.bind_of_ok (readLen_encLen cfg h1 _)]
    by_cases hl : l = []
    · subst hl; simp
    · rw [if_neg (by simpa using hl), if_pos h2, h3 hl]
      rw [Rd.alloc_true, Rd.pure_bind,
        Rd.bind_of_ok (Rd.readExact_append _ t _ (flatMap_leBytes_length w l)),
        splitN_flatMap hW]
      rfl
  framed := Rd.Framed.bind (readLen_framed cfg) fun n => Rd.Framed.ite (Rd.Framed.pure _)
    (Rd.Framed.ite (Rd.Framed.bind (Rd.Framed.alloc _) fun _ =>
      Rd.Framed.bind (Rd.Framed.readExact _) fun _ => Rd.Framed.pure _) (Rd.Framed.fail _))
  sound := by
    refine Rd.Yields.bind (readLen_yields cfg) fun n hn => Rd.Yields.ite
      (fun h0 => Rd.Yields.pure ⟨by simp, by simp, by simp⟩) fun h0 =>
      Rd.Yields.ite (fun hlt => Rd.Yields.alloc_bind fun hcap => Rd.Yields.bind_any fun b =>
        Rd.Yields.pure ?_) fun _ => Rd.Yields.fail _
    refine ⟨by simpa using hn, by simpa using hlt, fun _ => by simpa using hcap⟩
  skip_agree := by
    refine Rd.Agree.bind_same fun n => Rd.Agree.ite_left (fun h => ?_) fun _ =>
      Rd.Agree.ite (fun _ => Rd.Agree.alloc_left
        (Rd.Agree.bind_pure_left (Rd.Agree.readExact_advance _))) fun _ => Rd.Agree.fail_left
    subst h
    rw [if_pos (by simp)]
    intro s a r hs
    simp at hs
    exact ⟨(), by simp [Rd.advance, hs]⟩
  skip_framed := Rd.Framed.bind (readLen_framed cfg) fun n => Rd.Framed.ite (Rd.Framed.advance _)
    (Rd.Framed.fail _)
  skipS_eq := by simp only [bulkC, Rd.consume_eq]

theorem bulkC_checks (cfg : Cfg) (cap) (W w : Nat) : (bulkC cfg cap W w).Checks :=
  Rd.SameAccept.discard _

theorem bulkC_panicFree (cfg : Cfg) {cap} (hcap : ∀ n, cap n = true) (W w : Nat) :
    (bulkC cfg cap W w).PanicFree := by
  have h : (bulkC cfg cap W w).dec.NoPanic := Rd.NoPanic.bind (readLen_noPanic cfg) fun n =>
    Rd.NoPanic.ite (Rd.NoPanic.pure _) (Rd.NoPanic.ite (Rd.NoPanic.bind (Rd.NoPanic.alloc (hcap _))
      fun _ => Rd.NoPanic.bind (Rd.NoPanic.readExact _) fun _ => Rd.NoPanic.pure _)
      (Rd.NoPanic.fail _))
  exact ⟨h, Rd.NoPanic.bind (readLen_noPanic cfg) fun n => Rd.NoPanic.ite (Rd.NoPanic.advance _)
    (Rd.NoPanic.fail _), h.discard⟩

/-! ### Packed booleans -/

@[simp] theorem packBools_length (n : Nat) (l : List Bool) : (packBools n l).length = n := by
  induction n generalizing l with
  | zero => rfl
  | succ n ih => simp [packBools, ih]

/-- All lists of at most eight booleans (a complete table). -/
def allChunks : Nat → List (List Bool)
  | 0 => [[]]
  | n + 1 => [] :: (allChunks n).flatMap fun l => [true :: l, false :: l]

theorem mem_allChunks (n : Nat) (l : List Bool) (h : l.length ≤ n) : l ∈ allChunks n := by
  induction n generalizing l with
  | zero => simp at h; simp [h, allChunks]
  | succ n ih =>
    cases l with
    | nil => simp [allChunks]
    | cons b l =>
      simp only [allChunks, List.mem_cons, List.mem_flatMap]
      right
      refine ⟨l, ih l (by simpa using h), ?_⟩
      cases b <;> simp

theorem pack_table : (allChunks 8).all (fun l => unpackByte l.length (packByte l) == l) = true := by
  decide +kernel

theorem unpackByte_packByte (l : List Bool) (h : l.length ≤ 8) :
    unpackByte l.length (packByte l) = l := by
  have := (List.all_eq_true.1 pack_table) l (mem_allChunks 8 l h)
  simpa using this

theorem unpackByte_length (n : Nat) (b : UInt8) : (unpackByte n b).length = n := by
  simp [unpackByte]

theorem unpackBools_packBools (n : Nat) (l : List Bool) (h : divCeil8 l.length = n) :
    unpackBools l.length (packBools n l) = l := by
  induction n generalizing l with
  | zero =>
    have : l.length = 0 := by unfold divCeil8 at h; omega
    simp at this
    simp [this, packBools, unpackBools]
  | succ n ih =>
    simp only [packBools, unpackBools]
    have h1 : min 8 l.length = (l.take 8).length := by simp
    have h2 : l.length - 8 = (l.drop 8).length := by simp
    rw [h1, h2, unpackByte_packByte _ (by simp; omega), ih, List.take_append_drop]
    unfold divCeil8 at h ⊢
    simp
    omega

theorem unpackBools_length (b : Bytes) : ∀ len, divCeil8 len = b.length →
    (unpackBools len b).length = len := by
  induction b with
  | nil => intro len h; unfold divCeil8 at h; simp at h; simp [unpackBools]; omega
  | cons x b ih =>
    intro len h
    simp only [unpackBools, List.length_append, unpackByte_length]
    simp [divCeil8] at h
    rw [ih]
    · omega
    · unfold divCeil8; omega

theorem boolsC_lawful (cfg : Cfg) (cap) : (boolsC cfg cap).Lawful where
  enc_ok := fun _ _ => ⟨_, rfl⟩
  round_trip := by
    rintro l b ⟨h1, h2⟩ h t
    simp only [boolsC, Res.ok.injEq] at h
    subst h
    simp only [boolsC]
    rw [List.append_assoc, Rd.bind_of_ok (readLen_encLen cfg h1 _)]
    by_cases hl : l = []
    · subst hl; simp [divCeil8, packBools]
    · rw [if_neg (by simpa using hl), (h2 hl).1, (h2 hl).2]
      rw [Rd.alloc_true, Rd.pure_bind,
        Rd.bind_of_ok (Rd.readExact_append _ t _ (packBools_length _ _)), Rd.pure_bind,
        unpackBools_packBools _ _ rfl]
      rfl
  framed := Rd.Framed.bind (readLen_framed cfg) fun n => Rd.Framed.ite (Rd.Framed.pure _)
    (Rd.Framed.bind (Rd.Framed.alloc _) fun _ => Rd.Framed.bind (Rd.Framed.readExact _) fun _ =>
      Rd.Framed.bind (Rd.Framed.alloc _) fun _ => Rd.Framed.pure _)
  sound := by
    refine Rd.Yields.bind (readLen_yields cfg) fun n hn => Rd.Yields.ite
      (fun h0 => Rd.Yields.pure ⟨by simp, by simp⟩) fun h0 =>
      Rd.Yields.alloc_bind fun hcap => Rd.Yields.bind (Rd.Yields.readExact _) fun b hb =>
        Rd.Yields.alloc_bind fun hcap2 => Rd.Yields.pure ?_
    have hlen := unpackBools_length b n hb.symm
    exact ⟨by rw [hlen]; exact hn, fun _ => by rw [hlen]; exact ⟨hcap, hcap2⟩⟩
  skip_agree := by
    refine Rd.Agree.bind_same fun n => Rd.Agree.ite_left (fun h => ?_) fun _ =>
      Rd.Agree.alloc_left ?_
    · subst h
      intro s a r hs
      simp at hs
      exact ⟨(), by simp [Rd.advance, hs, divCeil8]⟩
    · intro s a r hs
      obtain ⟨b, r', h1, h2⟩ := Rd.bind_ok.1 hs
      cases hcap : cap n with
      | false => simp [hcap, Rd.alloc, Rd.bind_run] at h2
      | true =>
        simp [hcap] at h2
        obtain ⟨-, rfl⟩ := h2
        exact Rd.Agree.readExact_advance _ _ _ _ h1
  skip_framed := Rd.Framed.bind (readLen_framed cfg) fun n => Rd.Framed.advance _
  skipS_eq := by simp only [boolsC, Rd.consume_eq]

theorem boolsC_checks (cfg : Cfg) (cap) : (boolsC cfg cap).Checks :=
  Rd.SameAccept.discard _

theorem boolsC_panicFree (cfg : Cfg) {cap} (hcap : ∀ n, cap n = true) :
    (boolsC cfg cap).PanicFree := by
  have h : (boolsC cfg cap).dec.NoPanic := Rd.NoPanic.bind (readLen_noPanic cfg) fun n =>
    Rd.NoPanic.ite (Rd.NoPanic.pure _) (Rd.NoPanic.bind (Rd.NoPanic.alloc (hcap _))
      fun _ => Rd.NoPanic.bind (Rd.NoPanic.readExact _) fun _ =>
        Rd.NoPanic.bind (Rd.NoPanic.alloc (hcap _)) fun _ => Rd.NoPanic.pure _)
  exact ⟨h, Rd.NoPanic.bind (readLen_noPanic cfg) fun n => Rd.NoPanic.advance _, h.discard⟩

/-! ### Times, NotNan, Uuid -/

theorem durationNew_valid {s : BitVec 64} {n : BitVec 32} (h : n.toNat < 1000000000) :
    durationNew s n = .ok (s, n) := by simp [durationNew, h]

theorem durationNew_sound {s : BitVec 64} {n : BitVec 32} {d} (h : durationNew s n = .ok d) :
    d.2.toNat < 1000000000 := by
  unfold durationNew at h
  split at h
  · simp at h; subst h; assumption
  · simp only [] at h
    split at h
    · simp at h
      subst h
      simp
      omega
    · simp at h

theorem durationC_lawful (cfg : Cfg) : (durationC cfg).Lawful := by
  refine Codec.mirror_lawful (fun _ _ => ⟨_, rfl⟩) ?_ ?_ ?_
  · rintro ⟨s, n⟩ b hv h t
    simp only [Res.ok.injEq] at h
    subst h
    rw [List.append_assoc, Rd.bind_of_ok (decInt_encInt cfg .u64 s _),
      Rd.bind_of_ok (decInt_encInt cfg .u32 n _), durationNew_valid hv]
    rfl
  · exact Rd.Framed.bind (decInt_framed cfg _) fun _ => Rd.Framed.bind (decInt_framed cfg _) fun _ =>
      Rd.Framed.lift _
  · refine Rd.Yields.bind_any fun s => Rd.Yields.bind_any fun n => ?_
    intro x d r h
    cases hf : durationNew s n <;> simp [hf] at h
    obtain ⟨rfl, -⟩ := h
    exact durationNew_sound hf

theorem durationC_checks (cfg : Cfg) : (durationC cfg).Checks := Codec.mirror_checks

theorem systemTimeC_lawful (cfg : Cfg) : (systemTimeC cfg).Lawful where
  enc_ok := by
    rintro ⟨s, n⟩ ⟨h1, h2⟩
    exact ⟨_, by simp only [systemTimeC]; rw [if_neg (by simp at h1; omega)]⟩
  round_trip := by
    rintro ⟨s, n⟩ b ⟨h1, h2⟩ h t
    simp only [systemTimeC] at h
    have hs : ¬ s.toInt < 0 := by simp at h1; omega
    rw [if_neg hs] at h
    simp only [Res.ok.injEq] at h
    subst h
    simp only [systemTimeC]
    rw [List.append_assoc, Rd.bind_of_ok (decInt_encInt cfg .u64 s _),
      Rd.bind_of_ok (decInt_encInt cfg .u32 n _), durationNew_valid h2, Rd.lift_ok, Rd.pure_bind,
      if_pos]
    · rfl
    · have := BitVec.toInt_eq_toNat_cond s
      simp only [] at h1 ⊢
      split at this <;> omega
  framed := Rd.Framed.bind (decInt_framed cfg _) fun _ => Rd.Framed.bind (decInt_framed cfg _) fun _ =>
      Rd.Framed.bind (Rd.Framed.lift _) fun _ => Rd.Framed.ite (Rd.Framed.pure _) Rd.Framed.panic
  sound := by
    refine Rd.Yields.bind_any fun s => Rd.Yields.bind_any fun n => ?_
    intro x d r h
    cases hf : durationNew s n <;> simp [hf, Rd.bind_run] at h
    rename_i d'
    split at h
    · rename_i hlt
      simp at h
      obtain ⟨rfl, -⟩ := h
      refine ⟨?_, durationNew_sound hf⟩
      have := BitVec.toInt_eq_toNat_cond d'.1
      rw [if_pos (by omega)] at this
      omega
    · simp at h
  skip_agree := by
    refine Rd.Agree.bind (Rd.Agree.refl _).discard fun a x => ?_
    intro s d r h
    obtain ⟨n, r', h1, h2⟩ := Rd.bind_ok.1 h
    obtain ⟨d', r'', h3, h4⟩ := Rd.bind_ok.1 h2
    have : r'' = r := by
      split at h4 <;> simp at h4
      exact h4.2
    subst this
    have : r' = r'' := by
      cases hf : durationNew a n <;> simp [hf] at h3
      exact h3.2
    subst this
    exact ⟨(), Rd.bind_of_ok h1⟩
  skip_framed := Rd.Framed.bind (decInt_framed cfg _).discard fun _ => (decInt_framed cfg _).discard
  skipS_eq := rfl

theorem systemTimeC_skip_noPanic (cfg : Cfg) : (systemTimeC cfg).skip.NoPanic :=
  Rd.NoPanic.bind (decInt_noPanic cfg _).discard fun _ => (decInt_noPanic cfg _).discard

theorem notNanC_lawful (n : Nat) : (notNanC n).Lawful where
  enc_ok := fun _ _ => ⟨_, rfl⟩
  round_trip := by
    intro v b hv h t
    simp only [notNanC]
    rw [Rd.bind_of_ok ((floatC_lawful n).round_trip v b trivial h t)]
    simp only [notNanC] at hv
    rw [hv]
    rfl
  framed := Rd.Framed.bind (floatC_lawful n).framed fun _ => Rd.Framed.ite (Rd.Framed.fail _)
    (Rd.Framed.pure _)
  sound := Rd.Yields.bind_any fun v => Rd.Yields.ite (fun _ => Rd.Yields.fail _) fun h =>
    Rd.Yields.pure (by simpa [notNanC] using h)
  skip_agree := by
    intro s a r h
    obtain ⟨v, r', h1, h2⟩ := Rd.bind_ok.1 h
    have : r' = r := by
      split at h2 <;> simp at h2
      exact h2.2
    subst this
    exact (floatC_lawful n).skip_agree _ _ _ h1
  skip_framed := (floatC_lawful n).skip_framed
  skipS_eq := (floatC_lawful n).skipS_eq

theorem notNanC_checks (n : Nat) : (notNanC n).Checks := Rd.SameAccept.discard _

theorem notNanC_panicFree (n : Nat) : (notNanC n).PanicFree := by
  have h : (notNanC n).dec.NoPanic := Rd.NoPanic.bind (floatC_panicFree n).dec fun _ =>
    Rd.NoPanic.ite (Rd.NoPanic.fail _) (Rd.NoPanic.pure _)
  exact ⟨h, (floatC_panicFree n).skip, h.discard⟩

theorem uuidC_lawful : uuidC.Lawful where
  enc_ok := fun _ _ => ⟨_, rfl⟩
  round_trip := by
    intro v b _ h t
    simp only [uuidC, Res.ok.injEq] at h
    subst h
    simp only [uuidC]
    rw [readLE_leBytes]
    congr 2
    apply BitVec.eq_of_toNat_eq
    simp
    have := v.isLt
    omega
  framed := readLE_framed _ _
  sound := Rd.Yields.trivial
  skip_agree := Rd.Agree.bind_pure_left (Rd.Agree.readExact_advance _)
  skip_framed := Rd.Framed.advance _
  skipS_eq := Rd.consume_eq _

theorem uuidC_checks : uuidC.Checks := Rd.SameAccept.discard _
theorem uuidC_panicFree : uuidC.PanicFree :=
  ⟨readLE_noPanic _ _, Rd.NoPanic.advance _, (readLE_noPanic _ _).discard⟩

end Revision
