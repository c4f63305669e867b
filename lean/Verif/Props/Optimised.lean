import Verif.Proofs.Offsets

/-! # Properties of the optimised wire format: C30–C34 -/

namespace Revision

/-- A statement about all bytes is a statement about 256 numbers. -/
theorem forall_uint8 {P : UInt8 → Prop} (h : ∀ i : Fin 256, P (UInt8.ofNat i)) (b : UInt8) : P b := by
  have := h ⟨b.toNat, b.toNat_lt⟩
  simpa using this

/-! ### C30: the tag byte -/

/-- The number of a size class on the wire. -/
def SizeClass.code : SizeClass → Nat
  | .inline => 0
  | .fixed => 1
  | .varlen => 2

/-- C30: the tag byte is `id + 32 * class`, for every id below 32 and every class. -/
theorem C30_layout (id : UInt8) (sc : SizeClass) (h : id.toNat < 32) :
    (Tag.new id sc).toNat = id.toNat + 32 * sc.code := by
  revert h
  refine forall_uint8 (P := fun id => id.toNat < 32 →
    (Tag.new id sc).toNat = id.toNat + 32 * sc.code) ?_ id
  cases sc <;> decide +kernel

example : (Tag.new 5 .varlen).toNat = 69 := C30_layout 5 .varlen (by decide)

/-- C30: reading back a tag built from an id below 32 and a class returns both. -/
theorem C30_round_trip (id : UInt8) (sc : SizeClass) (h : id.toNat < 32) :
    Tag.variantId (Tag.new id sc) = id ∧ Tag.sizeClass (Tag.new id sc) = .ok sc := by
  revert h
  refine forall_uint8 (P := fun id => id.toNat < 32 →
    Tag.variantId (Tag.new id sc) = id ∧ Tag.sizeClass (Tag.new id sc) = .ok sc) ?_ id
  cases sc <;> decide +kernel

example : Tag.variantId (Tag.new 31 .fixed) = 31 ∧ Tag.sizeClass (Tag.new 31 .fixed) = .ok .fixed :=
  C30_round_trip 31 .fixed (by decide)

/-- C30: the reading functions on every byte: five bits of id, two bits of class, and the class
`3` rejected with the offending byte. -/
theorem C30_read (b : UInt8) :
    (Tag.variantId b).toNat = b.toNat % 32 ∧
    Tag.sizeClass b =
      (if b.toNat / 32 % 4 = 0 then .ok .inline
       else if b.toNat / 32 % 4 = 1 then .ok .fixed
       else if b.toNat / 32 % 4 = 2 then .ok .varlen
       else .err (.invalidTag b)) := by
  refine forall_uint8 (P := fun b => (Tag.variantId b).toNat = b.toNat % 32 ∧ Tag.sizeClass b =
      (if b.toNat / 32 % 4 = 0 then .ok .inline
       else if b.toNat / 32 % 4 = 1 then .ok .fixed
       else if b.toNat / 32 % 4 = 2 then .ok .varlen
       else .err (.invalidTag b))) ?_ b
  decide +kernel

/-- C30: writers only emit tags with the reserved bit clear, whatever the id. -/
theorem C30_reserved_clear (id : UInt8) (sc : SizeClass) : (Tag.new id sc).toNat < 128 := by
  refine forall_uint8 (P := fun id => (Tag.new id sc).toNat < 128) ?_ id
  cases sc <;> decide +kernel

/-- C30: `is_extended` is bit 7, of every byte; so no tag this crate writes is extended. -/
theorem C30_extended (b : UInt8) (id : UInt8) (sc : SizeClass) :
    (Tag.isExtended b = true ↔ 128 ≤ b.toNat) ∧ Tag.isExtended (Tag.new id sc) = false := by
  have key : ∀ b : UInt8, Tag.isExtended b = decide (128 ≤ b.toNat) :=
    forall_uint8 (P := fun b => Tag.isExtended b = decide (128 ≤ b.toNat)) (by decide +kernel)
  refine ⟨by rw [key]; exact decide_eq_true_iff, ?_⟩
  rw [key]
  have := C30_reserved_clear id sc
  exact decide_eq_false (by omega)

/-- C30: every envelope starts with the tag of its id and class. -/
theorem C30_envelopes (id : UInt8) (body : Res Bytes) (b : Bytes) :
    (encodeInline id).head? = some (Tag.new id .inline) ∧
    (encodeFixed id body = .ok b → b.head? = some (Tag.new id .fixed)) ∧
    (encodeVarlen id body = .ok b → b.head? = some (Tag.new id .varlen)) := by
  refine ⟨rfl, fun h => ?_, fun h => ?_⟩
  · obtain ⟨x, _, h⟩ := Res.bind_eq_ok.1 h
    injection h with h; subst h; rfl
  · obtain ⟨x, _, h⟩ := Res.bind_eq_ok.1 h
    split at h
    · injection h with h; subst h; rfl
    · cases h

/-! ### C31: the reserved bit -/

/-- What C31 asserts: reading a tag byte with the reserved bit set is an error. -/
def RejectsReservedBit : Prop :=
  ∀ (b : UInt8) (t : Bytes), 128 ≤ b.toNat → ∃ e, readOptimisedTag (b :: t) = .err e

/-- C31 is false: the byte `0x80` is read as variant 0, inline. -/
theorem C31_reserved_bit_false : ¬ RejectsReservedBit := by
  intro h
  obtain ⟨e, he⟩ := h 0x80 [] (by decide)
  have : readOptimisedTag [0x80] = .ok ((0x80, .inline), []) := by decide
  rw [this] at he; cases he

/-- C31, what holds instead: the reserved bit is only reported by `is_extended`; a byte with
it set is read exactly as the byte without it, and rejected exactly when its class is the
reserved one.  Missing: the rejection of the other 96 bytes. -/
theorem C31_reserved_bit_partial (b : UInt8) (h : 128 ≤ b.toNat) :
    Tag.isExtended b = true ∧
    Tag.variantId b = Tag.variantId (b - 128) ∧
    ∀ t, (∃ sc, readOptimisedTag (b :: t) = .ok ((b, sc), t) ∧
        readOptimisedTag ((b - 128) :: t) = .ok ((b - 128, sc), t)) ∨
      (readOptimisedTag (b :: t) = .err (.invalidTag b) ∧
        readOptimisedTag ((b - 128) :: t) = .err (.invalidTag (b - 128))) := by
  suffices hs : Tag.isExtended b = true ∧ Tag.variantId b = Tag.variantId (b - 128) ∧
      ((∃ sc, Tag.sizeClass b = .ok sc ∧ Tag.sizeClass (b - 128) = .ok sc) ∨
        (Tag.sizeClass b = .err (.invalidTag b) ∧
          Tag.sizeClass (b - 128) = .err (.invalidTag (b - 128)))) by
    have hread : ∀ (c : UInt8) (t : Bytes), readOptimisedTag (c :: t) =
        (Rd.lift (Tag.sizeClass c) >>= fun sc => pure (c, sc)) t := fun c t => rfl
    refine ⟨hs.1, hs.2.1, fun t => ?_⟩
    rw [hread, hread]
    rcases hs.2.2 with ⟨sc, h1, h2⟩ | ⟨h1, h2⟩
    · exact .inl ⟨sc, by rw [h1]; rfl, by rw [h2]; rfl⟩
    · exact .inr ⟨by rw [h1]; rfl, by rw [h2]; rfl⟩
  revert h
  have key : ∀ i : Fin 256, 128 ≤ (UInt8.ofNat i).toNat →
      Tag.isExtended (UInt8.ofNat i) = true ∧
      Tag.variantId (UInt8.ofNat i) = Tag.variantId (UInt8.ofNat i - 128) ∧
      ((Tag.sizeClass (UInt8.ofNat i) = .ok .inline ∧
          Tag.sizeClass (UInt8.ofNat i - 128) = .ok .inline) ∨
        (Tag.sizeClass (UInt8.ofNat i) = .ok .fixed ∧
          Tag.sizeClass (UInt8.ofNat i - 128) = .ok .fixed) ∨
        (Tag.sizeClass (UInt8.ofNat i) = .ok .varlen ∧
          Tag.sizeClass (UInt8.ofNat i - 128) = .ok .varlen) ∨
        (Tag.sizeClass (UInt8.ofNat i) = .err (.invalidTag (UInt8.ofNat i)) ∧
          Tag.sizeClass (UInt8.ofNat i - 128) = .err (.invalidTag (UInt8.ofNat i - 128)))) := by
    decide +kernel
  refine forall_uint8 (P := fun b => 128 ≤ b.toNat → Tag.isExtended b = true ∧
    Tag.variantId b = Tag.variantId (b - 128) ∧
    ((∃ sc, Tag.sizeClass b = .ok sc ∧ Tag.sizeClass (b - 128) = .ok sc) ∨
      (Tag.sizeClass b = .err (.invalidTag b) ∧
        Tag.sizeClass (b - 128) = .err (.invalidTag (b - 128))))) (fun i hi => ?_) b
  obtain ⟨h1, h2, h3⟩ := key i hi
  refine ⟨h1, h2, ?_⟩
  rcases h3 with h | h | h | h
  · exact .inl ⟨_, h⟩
  · exact .inl ⟨_, h⟩
  · exact .inl ⟨_, h⟩
  · exact .inr h

example : Tag.isExtended 0xC1 = true := (C31_reserved_bit_partial 0xC1 (by decide)).1

/-! ### C32: envelopes -/

/-- C32: the length-prefixed body of a varlen envelope.  Reading it succeeds exactly on a
32-bit length followed by that many bytes, and returns these bytes. -/
theorem C32_varlen_slice (s r body : Bytes) :
    readVarlenSlice s = .ok (body, r) ↔
      body.length < 2 ^ 32 ∧ s = leBytes 4 body.length ++ (body ++ r) := by
  constructor
  · intro h
    obtain ⟨n, r1, h1, h2⟩ := Rd.bind_ok.1 h
    obtain ⟨hd, r0, h3, h4⟩ := Rd.bind_ok.1 h1
    simp only [Rd.pure_run, Res.ok.injEq, Prod.mk.injEq] at h4
    obtain ⟨rfl, rfl⟩ := h4
    obtain ⟨b, r2, h5, h6⟩ := Rd.bind_ok.1 h2
    obtain ⟨u, r3, h7, h8⟩ := Rd.bind_ok.1 h6
    simp only [Rd.pure_run, Res.ok.injEq, Prod.mk.injEq] at h8
    obtain ⟨rfl, rfl⟩ := h8
    simp only [Rd.readExact] at h3
    split at h3
    · rename_i hl
      simp only [Res.ok.injEq, Prod.mk.injEq] at h3
      obtain ⟨rfl, rfl⟩ := h3
      simp only [Rd.peek] at h5
      split at h5
      · rename_i hp
        simp only [Res.ok.injEq, Prod.mk.injEq] at h5
        obtain ⟨rfl, rfl⟩ := h5
        simp only [Rd.advance] at h7
        rw [if_pos hp] at h7
        simp only [Res.ok.injEq, Prod.mk.injEq] at h7
        obtain ⟨_, rfl⟩ := h7
        have hlen : (s.take 4).length = 4 := by simp; omega
        have e1 := leBytes_leVal (s.take 4)
        have e2 := leVal_lt (s.take 4)
        rw [hlen] at e1 e2
        have e3 : ((s.drop 4).take (leVal (s.take 4))).length = leVal (s.take 4) := by
          simp at hp ⊢; omega
        rw [e3]
        refine ⟨by simpa using e2, ?_⟩
        rw [e1, List.take_append_drop, List.take_append_drop]
      · cases h5
    · cases h3
  · rintro ⟨h, rfl⟩
    have e : leVal (leBytes 4 body.length) = body.length := by
      rw [leVal_leBytes]; exact Nat.mod_eq_of_lt (by simpa using h)
    unfold readVarlenSlice readVarlenLen
    rw [Rd.bind_of_ok (a := body.length) (r := body ++ r)
      (by rw [Rd.bind_of_ok (Rd.readExact_append _ _ 4 (leBytes_length 4 _)), e]; rfl)]
    rw [Rd.bind_of_ok (a := body) (r := body ++ r) (by simp [Rd.peek])]
    rw [Rd.bind_of_ok (Rd.advance_append _ _ _ rfl)]
    rfl

/-- C32: skipping a varlen body follows reading it, so it never depends on what is inside. -/
theorem C32_varlen_skip (s r : Bytes) :
    (skipVarlen s = .ok ((), r) ↔ ∃ body, readVarlenSlice s = .ok (body, r)) ∧
    (skipVarlenBorrowed s = .ok ((), r) ↔ ∃ body, readVarlenSlice s = .ok (body, r)) := by
  have key : ∀ m : Nat → Rd Unit, (∀ n x, m n x = Rd.advance n x) →
      (((do let len ← readVarlenLen; m len : Rd Unit) s = .ok ((), r)) ↔
        ∃ body, readVarlenSlice s = .ok (body, r)) := by
    intro m hm
    constructor
    · intro h
      obtain ⟨n, r1, h1, h2⟩ := Rd.bind_ok.1 h
      rw [hm] at h2
      have hn : n ≤ r1.length := by
        simp only [Rd.advance] at h2; split at h2
        · assumption
        · cases h2
      refine ⟨r1.take n, ?_⟩
      unfold readVarlenSlice
      rw [Rd.bind_of_ok h1, Rd.bind_of_ok (a := r1.take n) (r := r1) (by simp [Rd.peek, hn]),
        Rd.bind_of_ok h2]
      rfl
    · rintro ⟨body, h⟩
      obtain ⟨n, r1, h1, h2⟩ := Rd.bind_ok.1 h
      obtain ⟨b, r2, h5, h6⟩ := Rd.bind_ok.1 h2
      obtain ⟨u, r3, h7, h8⟩ := Rd.bind_ok.1 h6
      simp only [Rd.pure_run, Res.ok.injEq, Prod.mk.injEq] at h8
      obtain ⟨rfl, rfl⟩ := h8
      have : r2 = r1 := by
        simp only [Rd.peek] at h5; split at h5
        · simp only [Res.ok.injEq, Prod.mk.injEq] at h5; exact h5.2.symm
        · cases h5
      subst this
      rw [Rd.bind_of_ok h1, hm]; exact h7
  refine ⟨key _ (fun n x => rfl), key _ (fun n x => ?_)⟩
  simp only [Rd.consume, Rd.advance]
  by_cases h : n ≤ x.length
  · rw [if_pos h, if_neg (by omega)]
  · rw [if_neg h, if_pos (by omega)]

/-- C32: a declared length that reaches past the end of the input is an error, for reading and
both skips; so is an input too short for the length itself. -/
theorem C32_overrun (s : Bytes) (h : s.length < 4 ∨ s.length < 4 + leVal (s.take 4)) :
    readVarlenSlice s = .err .io ∧ skipVarlen s = .err .io ∧ skipVarlenBorrowed s = .err .io := by
  by_cases h4 : s.length < 4
  · have e : readVarlenLen s = .err .io := by
      unfold readVarlenLen
      exact Rd.bind_of_err (by simp [Rd.readExact]; omega)
    exact ⟨Rd.bind_of_err e, Rd.bind_of_err e, Rd.bind_of_err e⟩
  · have e : readVarlenLen s = .ok (leVal (s.take 4), s.drop 4) := by
      unfold readVarlenLen
      rw [Rd.bind_of_ok (a := s.take 4) (r := s.drop 4) (by simp [Rd.readExact]; omega)]; rfl
    have hl : ¬ leVal (s.take 4) ≤ (s.drop 4).length := by simp; omega
    refine ⟨?_, ?_, ?_⟩
    · unfold readVarlenSlice
      rw [Rd.bind_of_ok e, Rd.bind_of_err (e := .io) (by simp only [Rd.peek]; rw [if_neg hl])]
    · unfold skipVarlen
      rw [Rd.bind_of_ok e]; simp only [Rd.advance]; rw [if_neg hl]
    · unfold skipVarlenBorrowed
      rw [Rd.bind_of_ok e]; simp only [Rd.consume]
      first | rw [if_neg hl] | rw [if_pos (by omega)]

example : skipVarlen [3, 0, 0, 0, 7, 7] = .err .io := (C32_overrun _ (by decide)).2.1

/-- C32: a varlen envelope is written iff the payload is at most `u32::MAX` bytes, otherwise
`Error::Serialize`; an error or panic writing the body is passed on. -/
theorem C32_varlen_write (id : UInt8) (body : Bytes) (e : Err) :
    (body.length < 2 ^ 32 → ∃ b, encodeVarlen id (.ok body) = .ok b) ∧
    (2 ^ 32 ≤ body.length → encodeVarlen id (.ok body) = .err .serialize) ∧
    encodeVarlen id (.err e) = .err e := by
  refine ⟨fun h => ⟨_, if_pos h⟩, fun h => if_neg (by omega), rfl⟩

/-- C32: what a varlen envelope writes reads back: the tag with the id and class, then the
body; skipping instead of reading the body stops at the same place. -/
theorem C32_varlen_round_trip (id : UInt8) (hid : id.toNat < 32) (body b t : Bytes)
    (h : encodeVarlen id (.ok body) = .ok b) :
    ∃ tag r, readOptimisedTag (b ++ t) = .ok ((tag, .varlen), r) ∧ Tag.variantId tag = id ∧
      readVarlenSlice r = .ok (body, t) ∧ skipVarlen r = .ok ((), t) ∧
      skipVarlenBorrowed r = .ok ((), t) := by
  obtain ⟨x, hx, h⟩ := Res.bind_eq_ok.1 h
  injection hx with hx; subst hx
  split at h
  · rename_i hl
    injection h with h; subst h
    have rt := C30_round_trip id .varlen hid
    have hs := (C32_varlen_slice (leBytes 4 body.length ++ (body ++ t)) t body).2 ⟨hl, rfl⟩
    refine ⟨Tag.new id .varlen, leBytes 4 body.length ++ (body ++ t), ?_, rt.1, hs,
      (C32_varlen_skip _ _).1.2 ⟨_, hs⟩, (C32_varlen_skip _ _).2.2 ⟨_, hs⟩⟩
    show readOptimisedTag (Tag.new id .varlen :: ((leBytes 4 body.length ++ body) ++ t)) = _
    unfold readOptimisedTag
    rw [Rd.bind_of_ok (Rd.readByte_cons _ _), rt.2, List.append_assoc]; rfl
  · cases h

example : ∃ b, encodeVarlen 7 (.ok [1, 2, 3]) = .ok b := (C32_varlen_write 7 [1, 2, 3] .io).1 (by decide)

/-- C32: inline and fixed envelopes read back their tag, leaving exactly the body. -/
theorem C32_inline_fixed_round_trip (id : UInt8) (hid : id.toNat < 32) (body t : Bytes) :
    readOptimisedTag (encodeInline id ++ t) = .ok ((Tag.new id .inline, .inline), t) ∧
    (∃ b, encodeFixed id (.ok body) = .ok b ∧
      readOptimisedTag (b ++ t) = .ok ((Tag.new id .fixed, .fixed), body ++ t)) ∧
    Tag.variantId (Tag.new id .inline) = id ∧ Tag.variantId (Tag.new id .fixed) = id := by
  have r1 := C30_round_trip id .inline hid
  have r2 := C30_round_trip id .fixed hid
  refine ⟨?_, ⟨_, rfl, ?_⟩, r1.1, r2.1⟩
  · show readOptimisedTag (Tag.new id .inline :: t) = _
    unfold readOptimisedTag
    rw [Rd.bind_of_ok (Rd.readByte_cons _ _), r1.2]; rfl
  · show readOptimisedTag (Tag.new id .fixed :: (body ++ t)) = _
    unfold readOptimisedTag
    rw [Rd.bind_of_ok (Rd.readByte_cons _ _), r2.2]; rfl

example : readOptimisedTag (encodeInline 3 ++ [9]) = .ok ((3, .inline), [9]) :=
  (C32_inline_fixed_round_trip 3 (by decide) [] [9]).1

/-! ### C33: accepted struct offset tables -/

/-- C33: if the validating walker accepts a payload for `n` fields, the payload is a head at least
as long as the table followed by `n` adjacent slices, and access to field `i` returns slice `i`;
an index of `n` or more is an error. -/
theorem C33_struct_fields (p : Bytes) (rev n : Nat) (w : IndexedStructWalker)
    (h : IndexedStructWalker.fromPayload p rev n = .ok w) :
    ∃ (head : Bytes) (fs : List Bytes), p = head ++ fs.flatten ∧ 4 * n ≤ head.length ∧
      fs.length = n ∧ (∀ i (hi : i < fs.length), w.fieldBytes i = .ok fs[i]) ∧
      (∀ i, n ≤ i → w.fieldBytes i = .err .deserialize) := by
  obtain ⟨rfl, hlen, hle, hlt, h0⟩ := structWalker_ok h
  let f : Nat → Nat := fun i => if i < n then u32At p (i * 4) else p.length
  have hmono : ∀ i < n, f i ≤ f (i + 1) := by
    intro i hi
    simp only [f, if_pos hi]
    split
    · exact Nat.le_of_lt (hlt i (by assumption))
    · have := hle i hi; have := Nat.mod_le p.length (2 ^ 32); omega
  obtain ⟨hfl, hf0⟩ := slices_flatten p f n hmono
  have hfn : f n = p.length := by simp [f]
  rw [hfn, slice_to_end] at hfl
  refine ⟨p.take (f 0), (List.range n).map fun i => slice p (f i) (f (i + 1)), ?_, ?_, by simp,
    ?_, ?_⟩
  · rw [hfl, List.take_append_drop]
  · simp only [List.length_take]
    cases n with
    | zero => simp
    | succ n =>
      have := h0 (by omega)
      have e : f 0 = u32At p 0 := by simp [f]
      rw [hfn] at hf0
      omega
  · intro i hi
    simp at hi
    simp only [List.getElem_map, List.getElem_range]
    have hbound : f i ≤ f (i + 1) ∧ f (i + 1) ≤ p.length := by
      refine ⟨hmono i hi, ?_⟩
      simp only [f]; split
      · have := hle (i + 1) (by assumption); have := Nat.mod_le p.length (2 ^ 32); omega
      · omega
    rw [IndexedStructWalker.fieldBytes]
    simp only [IndexedStructWalker.offset, ge_iff_le]
    rw [if_neg (by omega), decodeU32At_ok (by omega)]
    simp only [Res.ok_bind]
    have e1 : f i = u32At p (i * 4) := by simp [f, hi]
    by_cases hn : i + 1 < n
    · rw [if_pos hn, decodeU32At_ok (by omega)]
      have e2 : f (i + 1) = u32At p ((i + 1) * 4) := by simp [f, hn]
      rw [e1, e2] at hbound ⊢
      exact sliceR_ok hbound.1 hbound.2
    · rw [if_neg hn]
      have e2 : f (i + 1) = p.length := by simp [f, hn]
      rw [e1, e2] at hbound ⊢
      exact sliceR_ok hbound.1 hbound.2
  · intro i hi
    rw [IndexedStructWalker.fieldBytes]
    simp only [ge_iff_le]
    rw [if_pos hi]

/-- C33: exactly which payloads are accepted.  The table holds `n` 32-bit offsets, strictly
increasing, none pointing into the table or past the end.  (For payloads of 4 GiB or more the
end is taken modulo `2^32`.) -/
theorem C33_accepts_iff (p : Bytes) (rev n : Nat) :
    (∃ w, IndexedStructWalker.fromPayload p rev n = .ok w) ↔
      ∃ (offs : List Nat) (rest : Bytes), offs.length = n ∧
        p = (offs.map (leBytes 4)).flatten ++ rest ∧ offs.Pairwise (· < ·) ∧
        ∀ o ∈ offs, 4 * n ≤ o ∧ o < 2 ^ 32 ∧ o ≤ p.length % 2 ^ 32 := by
  constructor
  · rintro ⟨w, h⟩
    obtain ⟨rfl, hlen, hle, hlt, h0⟩ := structWalker_ok h
    obtain ⟨offs, h1, h2, h3⟩ := exists_tbl n (p.take (n * 4)) (by simp; omega)
    have hp : p = tbl offs ++ p.drop (n * 4) := by rw [← h2, List.take_append_drop]
    have get : ∀ i (hi : i < offs.length), u32At p (i * 4) = offs[i] := by
      intro i hi
      conv => lhs; rw [hp]
      exact u32At_tbl _ _ i hi (h3 _ (List.getElem_mem _))
    have mono := chain_mono hlt
    refine ⟨offs, p.drop (n * 4), h1, hp, ?_, ?_⟩
    · rw [List.pairwise_iff_getElem]
      intro i j hi hj hij
      rw [← get i hi, ← get j hj]
      exact mono i j hij (by omega)
    · intro o ho
      obtain ⟨i, hi, rfl⟩ := List.getElem_of_mem ho
      refine ⟨?_, h3 _ ho, ?_⟩
      · have a := h0 (by omega)
        rw [← get i hi]
        by_cases e : i = 0
        · subst e; simpa [Nat.mul_comm] using a
        · have := mono 0 i (by omega) (by omega)
          simp only [Nat.zero_mul] at this
          omega
      · rw [← get i hi]; exact hle i (by omega)
  · rintro ⟨offs, rest, h1, hp, hpw, hb⟩
    have hp' : p = tbl offs ++ rest := hp
    have get : ∀ i (hi : i < offs.length), u32At p (i * 4) = offs[i] := by
      intro i hi
      conv => lhs; rw [hp']
      exact u32At_tbl _ _ i hi (hb _ (List.getElem_mem _)).2.1
    have hl : n * 4 ≤ p.length := by
      rw [hp', List.length_append, tbl_length]; omega
    refine ⟨_, structWalker_iff.1.2 ⟨hl, fun j hj => ?_, fun j hj => ?_, fun hn => ?_⟩⟩
    · rw [get j (by omega)]; exact (hb _ (List.getElem_mem _)).2.2
    · rw [get j (by omega), get (j + 1) (by omega)]
      exact List.pairwise_iff_getElem.1 hpw j (j + 1) (by omega) (by omega) (by omega)
    · have := get 0 (by omega)
      simp only [Nat.zero_mul] at this
      rw [this, Nat.mul_comm]
      exact (hb _ (List.getElem_mem _)).1

/-- Two fields, `[9]` and `[7, 7]`, after a table pointing at 8 and 9. -/
example : ∃ w, IndexedStructWalker.fromPayload [8, 0, 0, 0, 9, 0, 0, 0, 9, 7, 7] 1 2 = .ok w ∧
    w.fieldBytes 0 = .ok [9] ∧ w.fieldBytes 1 = .ok [7, 7] := ⟨_, rfl, rfl, rfl⟩

/-- C33: whatever a field decoder does with the slice, accessing a field of an accepted walker
never panics on its own account. -/
theorem C33_no_panic (p : Bytes) (rev n : Nat) (w : IndexedStructWalker) (i : Nat)
    (h : IndexedStructWalker.fromPayload p rev n = .ok w) : w.fieldBytes i ≠ .panic := by
  obtain ⟨hd, fs, _, _, hn, h1, h2⟩ := C33_struct_fields p rev n w h
  by_cases hi : i < fs.length
  · rw [h1 i hi]; simp
  · rw [h2 i (by omega)]; simp

/-! ### C34: indexed struct access -/

/-- C34: over the payload written for any list of field encodings that fits 32-bit offsets, the
walker of the `n` fields returns for field `i` exactly the encoding of field `i`, and an error
for `i ≥ n`.  This is for the non-validating constructor, which the derived code uses. -/
theorem C34_fields (fs : List Bytes) (rev : Nat)
    (hlen : (indexedStructPayload fs).length < 2 ^ 32) :
    ∃ w, IndexedStructWalker.fromPayloadUnvalidated (indexedStructPayload fs) rev fs.length = .ok w ∧
      (∀ i (hi : i < fs.length), w.fieldBytes i = .ok fs[i]) ∧
      (∀ i, fs.length ≤ i → w.fieldBytes i = .err .deserialize) := by
  have hl : fs.length * 4 ≤ (indexedStructPayload fs).length := by
    rw [indexedStructPayload_length]; omega
  refine ⟨⟨indexedStructPayload fs, fs.length, rev⟩, ?_, fun i hi => ?_, fun i hi => ?_⟩
  · unfold IndexedStructWalker.fromPayloadUnvalidated; rw [if_neg (by omega)]
  · exact indexedStruct_fieldBytes fs rev hlen i hi
  · rw [IndexedStructWalker.fieldBytes]
    simp only [ge_iff_le]
    rw [if_pos hi]

/-- C34: the validating constructor accepts the payload, with the same walker, exactly when every
field but the last has a non-empty encoding.  (A zero-sized field that is not the last makes
the table non-increasing, and the validator refuses it.) -/
theorem C34_validated_iff (fs : List Bytes) (rev : Nat)
    (hlen : (indexedStructPayload fs).length < 2 ^ 32) :
    (∀ w, IndexedStructWalker.fromPayload (indexedStructPayload fs) rev fs.length = .ok w ↔
      (IndexedStructWalker.fromPayloadUnvalidated (indexedStructPayload fs) rev fs.length = .ok w ∧
        ∀ f ∈ fs.dropLast, f ≠ [])) := by
  have hl : fs.length * 4 ≤ (indexedStructPayload fs).length := by
    rw [indexedStructPayload_length]; omega
  have hu : IndexedStructWalker.fromPayloadUnvalidated (indexedStructPayload fs) rev fs.length =
      .ok ⟨indexedStructPayload fs, fs.length, rev⟩ := by
    unfold IndexedStructWalker.fromPayloadUnvalidated; rw [if_neg (by omega)]
  intro w
  rw [hu]
  have key : IndexedStructWalker.fromPayload (indexedStructPayload fs) rev fs.length =
      .ok ⟨indexedStructPayload fs, fs.length, rev⟩ ↔ ∀ f ∈ fs.dropLast, f ≠ [] := by
    rw [structWalker_iff.1]
    have hm : (indexedStructPayload fs).length % 2 ^ 32 = (indexedStructPayload fs).length :=
      Nat.mod_eq_of_lt hlen
    have hu := indexedStruct_u32At fs hlen
    constructor
    · rintro ⟨_, _, hlt, _⟩ f hf
      obtain ⟨i, hi, rfl⟩ := List.getElem_of_mem hf
      simp only [List.length_dropLast] at hi
      have := hlt i (by omega)
      rw [hu i (by omega), hu (i + 1) (by omega), take_succ_flatten_length fs i (by omega)] at this
      rw [List.getElem_dropLast]
      intro e
      rw [e] at this; simp at this
    · intro h
      refine ⟨hl, fun j hj => ?_, fun j hj => ?_, fun hn => ?_⟩
      · rw [hm, hu j hj, indexedStructPayload_length]
        have := take_flatten_length_le fs j; omega
      · rw [hu j (by omega), hu (j + 1) hj, take_succ_flatten_length fs j (by omega)]
        have : fs[j]'(by omega) ∈ fs.dropLast := by
          have e : fs.dropLast[j]'(by simp; omega) = fs[j]'(by omega) := List.getElem_dropLast _
          rw [← e]; exact List.getElem_mem _
        have := List.length_pos_iff.2 (h _ this)
        omega
      · have := hu 0 hn
        simp only [Nat.zero_mul] at this
        rw [this]; omega
  constructor
  · intro h
    have e := structWalker_iff.2.1 w h
    subst e
    exact ⟨rfl, key.1 h⟩
  · rintro ⟨h1, h2⟩
    injection h1 with h1; subst h1
    exact key.2 h2

/-- Three fields, the last one empty: accepted, and read back. -/
example : ∃ w, IndexedStructWalker.fromPayload (indexedStructPayload [[1], [2, 2], []]) 3 3 = .ok w ∧
    w.fieldBytes 0 = .ok [1] ∧ w.fieldBytes 1 = .ok [2, 2] ∧ w.fieldBytes 2 = .ok [] ∧
    w.fieldBytes 3 = .err .deserialize := ⟨_, rfl, rfl, rfl, rfl, rfl⟩

/-- An empty first field: refused. -/
example : IndexedStructWalker.fromPayload (indexedStructPayload [[], [2, 2]]) 3 2 =
    .err .offsetsNonMonotonic := rfl

/-- C34: decoding field `i` through the walker gives the value that was serialised there. -/
theorem C34_decode_field (fs : List Bytes) (rev : Nat) (c : Codec α) (hc : c.Lawful)
    (hlen : (indexedStructPayload fs).length < 2 ^ 32) (w : IndexedStructWalker)
    (hw : IndexedStructWalker.fromPayloadUnvalidated (indexedStructPayload fs) rev fs.length = .ok w)
    (i : Nat) (hi : i < fs.length) (v : α) (hv : c.valid v) (he : c.toVec v = .ok fs[i]) :
    w.decodeField c i = .ok v := by
  obtain ⟨w', h1, h2, _⟩ := C34_fields fs rev hlen
  rw [h1] at hw; injection hw with hw; subst hw
  unfold IndexedStructWalker.decodeField
  rw [h2 i hi]
  have := hc.round_trip v fs[i] hv he []
  rw [List.append_nil] at this
  simp only [Res.ok_bind, Codec.fromSlice, this]

example (w : IndexedStructWalker)
    (hw : IndexedStructWalker.fromPayloadUnvalidated (indexedStructPayload [[1], [251, 44, 1], []]) 3 3 = .ok w) :
    w.decodeField (intC ⟨false, true⟩ .u32) 1 = .ok 300 :=
  C34_decode_field [[1], [251, 44, 1], []] 3 (intC ⟨false, true⟩ .u32) (intC_lawful _ _) (by decide) w hw 1 (by decide)
    300 trivial rfl

end Revision
