import Verif.Model.Std
import Verif.Proofs.Prim

/-! Helper lemmas: the codecs of the standard types are lawful. -/

namespace Revision

theorem Rd.consume_eq (n : Nat) : Rd.consume n = Rd.advance n := by
  ext s : 1
  simp only [Rd.consume, Rd.advance]
  by_cases h : n ≤ s.length
  · rw [if_neg (by omega), if_pos h]
  · rw [if_pos (by omega), if_neg h]

/-! ### Strings -/

theorem fromUtf8_strBytes (s : String) : fromUtf8 (strBytes s) = .ok s := by
  have h : ByteArray.mk (strBytes s).toArray = s.toByteArray := by
    simp [strBytes]
  unfold fromUtf8
  rw [h, String.fromUTF8?, dif_pos s.isValidUTF8]
  rfl

theorem strBytes_of_fromUtf8 {b : Bytes} {s : String} (h : fromUtf8 b = .ok s) : strBytes s = b := by
  unfold fromUtf8 String.fromUTF8? at h
  split at h
  · rename_i s' hs
    split at hs
    · simp at hs h
      subst hs h
      simp [strBytes, String.fromUTF8]
    · simp at hs
  · simp at h

theorem fromUtf8_ne_panic (b : Bytes) : fromUtf8 b ≠ .panic := by
  unfold fromUtf8; split <;> simp

theorem strBytes_inj {s t : String} (h : strBytes s = strBytes t) : s = t := by
  have := fromUtf8_strBytes s
  rw [h, fromUtf8_strBytes] at this
  simpa using this.symm

@[simp] theorem strBytes_empty : strBytes "" = [] := by
  apply strBytes_of_fromUtf8
  simp [fromUtf8, String.fromUTF8?]
  rfl

theorem readBytes_encBytes {cfg : Cfg} {cap} {b : Bytes} (h : bytesFit cap b) (t : Bytes) :
    readBytes cfg cap (encBytes cfg b ++ t) = .ok (b, t) := by
  rw [readBytes, encBytes, List.append_assoc, Rd.bind_of_ok (readLen_encLen cfg h.1 _)]
  by_cases hb : b = []
  · subst hb; simp
  · have : b.length ≠ 0 := by simpa using hb
    rw [if_neg this, h.2 hb]
    exact Rd.readExact_append b t _ rfl

theorem readBytes_framed (cfg : Cfg) (cap) : (readBytes cfg cap).Framed :=
  Rd.Framed.bind (readLen_framed cfg) fun _ => Rd.Framed.ite (Rd.Framed.pure _)
    (Rd.Framed.bind (Rd.Framed.alloc _) fun _ => Rd.Framed.readExact _)

theorem readBytes_yields (cfg : Cfg) (cap) : (readBytes cfg cap).Yields (bytesFit cap) := by
  refine Rd.Yields.bind (readLen_yields cfg) fun n hn => Rd.Yields.ite (fun h0 => ?_) fun h0 => ?_
  · exact Rd.Yields.pure ⟨by simp, by simp⟩
  · refine Rd.Yields.alloc_bind fun hc => (Rd.Yields.readExact n).mono fun b hb => ?_
    exact ⟨by omega, fun _ => by rw [hb]; exact hc⟩

theorem Rd.NoPanic.alloc {ok : Bool} (h : ok = true) : (Rd.alloc ok).NoPanic := by
  rw [h]; exact Rd.NoPanic.pure ()

theorem readBytes_noPanic (cfg : Cfg) {cap : Nat → Bool} (hc : ∀ n, cap n = true) :
    (readBytes cfg cap).NoPanic :=
  Rd.NoPanic.bind (readLen_noPanic cfg) fun _ => Rd.NoPanic.ite (Rd.NoPanic.pure _)
    (Rd.NoPanic.bind (Rd.NoPanic.alloc (hc _)) fun _ => Rd.NoPanic.readExact _)

theorem skipBytes_agree (cfg : Cfg) (cap) : (readBytes cfg cap).Agree (skipBytes cfg) :=
  Rd.Agree.bind_same fun n => Rd.Agree.ite_left
    (fun h => by subst h; intro s a r hs; simp at hs; exact ⟨(), by simp [Rd.advance, hs]⟩)
    fun _ => Rd.Agree.alloc_left (Rd.Agree.readExact_advance n)

theorem skipBytes_framed (cfg : Cfg) : (skipBytes cfg).Framed :=
  Rd.Framed.bind (readLen_framed cfg) fun _ => Rd.Framed.advance _

theorem skipBytes_noPanic (cfg : Cfg) : (skipBytes cfg).NoPanic :=
  Rd.NoPanic.bind (readLen_noPanic cfg) fun _ => Rd.NoPanic.advance _

theorem skipBytesS_eq (cfg : Cfg) : skipBytesS cfg = skipBytes cfg := by
  simp only [skipBytesS, skipBytes, Rd.consume_eq]

theorem stringC_lawful (cfg : Cfg) (cap) : (stringC cfg cap).Lawful where
  enc_ok := fun _ _ => ⟨_, rfl⟩
  round_trip := by
    intro v b hv h t
    simp [stringC] at h
    subst h
    simp only [stringC]
    rw [Rd.bind_of_ok (readBytes_encBytes hv t), fromUtf8_strBytes]
    rfl
  framed := Rd.Framed.bind (readBytes_framed cfg cap) fun _ => Rd.Framed.lift _
  sound := by
    refine Rd.Yields.bind (readBytes_yields cfg cap) fun b hb => ?_
    intro s a r h
    cases hf : fromUtf8 b <;> simp [hf] at h
    obtain ⟨rfl, -⟩ := h
    simp only [stringC]
    rw [strBytes_of_fromUtf8 hf]
    exact hb
  skip_agree := Rd.Agree.bind_lift_left (skipBytes_agree cfg cap)
  skip_framed := skipBytes_framed cfg
  skipS_eq := skipBytesS_eq cfg

theorem stringC_checks (cfg : Cfg) (cap) : (stringC cfg cap).Checks := Rd.SameAccept.discard _

theorem stringC_panicFree (cfg : Cfg) {cap} (hc : ∀ n, cap n = true) :
    (stringC cfg cap).PanicFree := by
  have hd : (stringC cfg cap).dec.NoPanic :=
    Rd.NoPanic.bind (readBytes_noPanic cfg hc) fun _ => Rd.NoPanic.lift (fromUtf8_ne_panic _)
  exact ⟨hd, skipBytes_noPanic cfg, hd.discard⟩

theorem bytesC_lawful (cfg : Cfg) (cap) : (bytesC cfg cap).Lawful where
  enc_ok := fun _ _ => ⟨_, rfl⟩
  round_trip := by
    intro v b hv h t
    simp [bytesC] at h
    subst h
    exact readBytes_encBytes hv t
  framed := readBytes_framed cfg cap
  sound := readBytes_yields cfg cap
  skip_agree := skipBytes_agree cfg cap
  skip_framed := skipBytes_framed cfg
  skipS_eq := skipBytesS_eq cfg

theorem bytesC_checks (cfg : Cfg) (cap) : (bytesC cfg cap).Checks := Rd.SameAccept.discard _

theorem bytesC_panicFree (cfg : Cfg) {cap} (hc : ∀ n, cap n = true) :
    (bytesC cfg cap).PanicFree :=
  ⟨readBytes_noPanic cfg hc, skipBytes_noPanic cfg, (readBytes_noPanic cfg hc).discard⟩

theorem pathC_lawful (cfg : Cfg) (cap) : (pathC cfg cap).Lawful := by
  refine Codec.mirror_lawful ?_ ?_ ?_ ?_
  · rintro v ⟨-, s, hs⟩
    exact ⟨encBytes cfg v, by rw [hs]⟩
  · rintro v b ⟨hv, s, hs⟩ h t
    rw [hs] at h
    simp at h
    subst h
    have h2 := strBytes_of_fromUtf8 hs
    subst h2
    have := (stringC_lawful cfg cap).round_trip s _ hv rfl t
    rw [Rd.bind_of_ok this]
    rfl
  · exact Rd.Framed.bind (stringC_lawful cfg cap).framed fun _ => Rd.Framed.pure _
  · exact Rd.Yields.bind (stringC_lawful cfg cap).sound fun s hs =>
      Rd.Yields.pure ⟨hs, s, fromUtf8_strBytes s⟩

theorem pathC_checks (cfg : Cfg) (cap) : (pathC cfg cap).Checks := Codec.mirror_checks

theorem pathC_panicFree (cfg : Cfg) {cap} (hc : ∀ n, cap n = true) :
    (pathC cfg cap).PanicFree :=
  Codec.mirror_panicFree (Rd.NoPanic.bind (stringC_panicFree cfg hc).dec fun _ => Rd.NoPanic.pure _)

/-! ### Characters -/

theorem charLen_table : ∀ n : Fin 256, charLen (UInt8.ofNat n.val) =
    if n.val < 128 then 1 else if n.val < 192 then 0 else if n.val < 224 then 2
    else if n.val < 240 then 3 else if n.val < 248 then 4 else 0 := by
  decide +kernel

theorem charLen_eq (b : UInt8) : charLen b =
    if b.toNat < 128 then 1 else if b.toNat < 192 then 0 else if b.toNat < 224 then 2
    else if b.toNat < 240 then 3 else if b.toNat < 248 then 4 else 0 := by
  have := charLen_table ⟨b.toNat, b.toNat_lt⟩
  simpa using this

theorem utf8EncodeChar_cons (c : Char) :
    ∃ b rest, String.utf8EncodeChar c = b :: rest ∧ charLen b = rest.length + 1 := by
  unfold String.utf8EncodeChar
  simp only []
  split
  · refine ⟨_, _, rfl, ?_⟩
    rw [charLen_eq]
    simp only [UInt8.toNat_ofNat', List.length_nil]
    rw [if_pos (by omega)]
  split
  · refine ⟨_, _, rfl, ?_⟩
    rw [charLen_eq]
    simp only [UInt8.toNat_ofNat', List.length_cons, List.length_nil]
    rw [if_neg (by omega), if_neg (by omega), if_pos (by omega)]
  split
  · refine ⟨_, _, rfl, ?_⟩
    rw [charLen_eq]
    simp only [UInt8.toNat_ofNat', List.length_cons, List.length_nil]
    rw [if_neg (by omega), if_neg (by omega), if_neg (by omega), if_pos (by omega)]
  · refine ⟨_, _, rfl, ?_⟩
    rw [charLen_eq]
    simp only [UInt8.toNat_ofNat', List.length_cons, List.length_nil]
    rw [if_neg (by omega), if_neg (by omega), if_neg (by omega), if_neg (by omega),
      if_pos (by omega)]

theorem strBytes_eq_flatMap (s : String) : strBytes s = s.toList.flatMap String.utf8EncodeChar := by
  rw [strBytes, ← String.utf8Encode_toList]
  simp [List.utf8Encode]

theorem fromUtf8_char (c : Char) :
    ∃ s : String, fromUtf8 (String.utf8EncodeChar c) = .ok s ∧ s.toList = [c] := by
  refine ⟨String.ofList [c], ?_, by simp⟩
  have : strBytes (String.ofList [c]) = String.utf8EncodeChar c := by
    rw [strBytes_eq_flatMap]; simp
  rw [← this, fromUtf8_strBytes]

/-- What `char` decoding accepts: exactly the UTF-8 encodings of scalar values. -/
theorem charC_dec_iff {s r : Bytes} {c : Char} :
    charC.dec s = .ok (c, r) ↔ s = String.utf8EncodeChar c ++ r := by
  constructor
  · intro h
    simp only [charC, Codec.mirror] at h
    obtain ⟨b, t, h1, h2⟩ := Rd.bind_ok.1 h
    cases s with
    | nil => simp [Rd.readByte] at h1
    | cons b' t' =>
      simp at h1
      obtain ⟨rfl, rfl⟩ := h1
      split at h2
      · simp at h2
      · rename_i hlen
        obtain ⟨rest, r', h3, h4⟩ := Rd.bind_ok.1 h2
        have hrl := Rd.Yields.readExact _ _ _ _ h3
        obtain ⟨u, hu, -, -⟩ := Rd.Framed.readExact _ _ _ _ h3
        have htr : t' = rest ++ r' := by
          simp only [Rd.readExact] at h3
          split at h3 <;> simp at h3
          rw [← h3.1, ← h3.2]; simp
        cases hf : fromUtf8 (b' :: rest) with
        | err e => simp [hf] at h4
        | panic => simp [hf] at h4
        | ok str =>
          simp only [hf] at h4
          have hsb := strBytes_of_fromUtf8 hf
          cases hl : str.toList with
          | nil => simp [hl] at h4
          | cons c' cs =>
            simp [hl] at h4
            obtain ⟨rfl, rfl⟩ := h4
            rw [strBytes_eq_flatMap, hl, List.flatMap_cons] at hsb
            obtain ⟨b2, rest2, he, hcl⟩ := utf8EncodeChar_cons c'
            rw [he] at hsb
            simp at hsb
            obtain ⟨rfl, hsb⟩ := hsb
            have : rest2.length = rest.length := by omega
            have hlen2 := congrArg List.length hsb
            simp only [List.length_append] at hlen2
            have hnil : cs.flatMap String.utf8EncodeChar = [] := by
              apply List.length_eq_zero_iff.1; omega
            rw [hnil, List.append_nil] at hsb
            rw [he, hsb, htr]
            rfl
  · rintro rfl
    obtain ⟨b, rest, he, hcl⟩ := utf8EncodeChar_cons c
    obtain ⟨str, hs, hl⟩ := fromUtf8_char c
    simp only [charC, Codec.mirror]
    rw [he, List.cons_append, Rd.bind_of_ok (Rd.readByte_cons _ _)]
    rw [if_neg (by omega), Rd.bind_of_ok (Rd.readExact_append rest r _ (by omega)), ← he, hs]
    simp [hl]

theorem charC_lawful : charC.Lawful := by
  refine Codec.mirror_lawful (fun _ _ => ⟨_, rfl⟩) ?_ ?_ Rd.Yields.trivial
  · intro v b _ h t
    simp at h
    subst h
    exact charC_dec_iff.2 rfl
  · refine Rd.Framed.bind Rd.Framed.readByte fun b => Rd.Framed.ite (Rd.Framed.fail _) ?_
    refine Rd.Framed.bind (Rd.Framed.readExact _) fun rest => ?_
    split
    · split
      · exact Rd.Framed.pure _
      · exact Rd.Framed.panic
    · exact Rd.Framed.fail _

theorem charC_checks : charC.Checks := Codec.mirror_checks

theorem charC_panicFree : charC.PanicFree := by
  refine Codec.mirror_panicFree ?_
  refine Rd.NoPanic.bind Rd.NoPanic.readByte fun b => Rd.NoPanic.ite (Rd.NoPanic.fail _) ?_
  refine Rd.NoPanic.bind (Rd.NoPanic.readExact _) fun rest => ?_
  split
  · rename_i str hs
    split
    · exact Rd.NoPanic.pure _
    · rename_i hl
      have h := strBytes_of_fromUtf8 hs
      rw [strBytes_eq_flatMap, hl] at h
      simp at h
  · exact Rd.NoPanic.fail _

end Revision
