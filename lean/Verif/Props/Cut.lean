import Verif.Proofs.Cut
import Verif.Props.Indexed
import Verif.Props.Optimised
import Verif.Model.DeriveWalk
import Verif.Spec.Cut

/-! # C109: a payload that was cut short

What the walkers over indexed data make of the first bytes of a payload, and the bytes of a field whose
offset table is damaged. -/

namespace Revision

section
variable {κ ν α V : Type} {k : Codec κ} {v : Codec ν} {c : Codec α}

/-! ### Maps -/

/-- C109, maps: no proper prefix of the encoding of a map with at least eight entries is taken for a
map; the walker, validating or not, says that the payload ends too early. -/
theorem C109_map (m : List (κ × ν)) (h8 : 8 ≤ m.length) (hlen : m.length < 2 ^ 56)
    (hsmall : SmallPairs k.enc v.enc m) (b : Bytes)
    (h : serializeIndexedEntries k.enc v.enc m = .ok b) (n : Nat) (hn : n < b.length) :
    IndexedMapWalker.fromPayload (b.take n) = .err .overrun ∧
    IndexedMapWalker.fromPayloadUnvalidated (b.take n) = .err .overrun := by
  obtain ⟨ps, l', h1, hp, he, hw⟩ := serializeIndexedEntries_ok h
  generalize (ps.mergeSort fun a b => (cmpBytes a.1 b.1).isLE) = es at he hw
  have hl : es.length = m.length := by rw [encEach_length he, hp.length_eq]
  have hs : ∀ p ∈ es, p.1.length < 2 ^ 32 ∧ p.2.length < 2 ^ 32 := by
    intro p hx
    obtain ⟨e, hm, x⟩ := (encEach_mem he p).1 hx
    have := encPair_ok.1 x
    exact ⟨(hsmall e (hp.mem_iff.2 hm)).1 _ this.1, (hsmall e (hp.mem_iff.2 hm)).2 _ this.2⟩
  rcases writeMapPairs_ok hw with ⟨h, _⟩ | ⟨_, os, kl, vl, ho, rfl⟩
  · omega
  rw [mapOffsets_small hs 0 0 (by decide) (by decide)] at ho
  split at ho
  case isFalse => cases ho
  case isTrue hfit =>
  simp only [Res.ok.injEq, Prod.mk.injEq, Nat.zero_add] at ho hfit
  obtain ⟨rfl, rfl, rfl⟩ := ho
  obtain ⟨hT, -, -, -⟩ := written_prologue rfl hfit.1 hfit.2 _ rfl
  simp only at hT
  have key := fun validate => mapWalker_cut (by omega) hT hfit.1 hfit.2 validate
    (List.take_append_drop n _).symm (by
      intro e
      have := congrArg List.length e
      rw [List.length_drop, List.length_nil] at this
      omega)
  exact ⟨key true, key false⟩

/-- Every one of the prefixes of the encoding of ten entries. -/
example : ∃ b, serializeIndexedEntries (intC ⟨false, true⟩ .u8).enc (intC ⟨false, true⟩ .u8).enc
      demoIndexed = .ok b ∧ 100 < b.length ∧
    IndexedMapWalker.fromPayload (b.take 100) = .err .overrun := by
  obtain ⟨b, hb⟩ := demoIndexed_enc
  refine ⟨b, hb, ?_, ?_⟩
  all_goals
    have hl : 100 < b.length := by
      have : serializeIndexedEntries (intC ⟨false, true⟩ .u8).enc (intC ⟨false, true⟩ .u8).enc
        demoIndexed = .ok b := hb
      obtain ⟨ps, l', h1, hp, he, hw⟩ := serializeIndexedEntries_ok this
      generalize (ps.mergeSort fun a b => (cmpBytes a.1 b.1).isLE) = es at he hw
      have hl : es.length = 10 := by rw [encEach_length he, ← hp.length_eq]; rfl
      rcases writeMapPairs_ok hw with ⟨h, _⟩ | ⟨_, os, kl, vl, ho, rfl⟩
      · omega
      have hol := mapOffsets_length ho
      have hk : ∀ p ∈ es, p.1.length = 1 := by
        intro p hx
        obtain ⟨e, hm, x⟩ := (encEach_mem he p).1 hx
        have := (encPair_ok.1 x).1
        rw [← Res.ok.inj this]; rfl
      have hv' : ∀ p ∈ es, p.2.length = 1 := by
        intro p hx
        obtain ⟨e, hm, x⟩ := (encEach_mem he p).1 hx
        have := (encPair_ok.1 x).2
        rw [← Res.ok.inj this]; rfl
      have sum : ∀ (l : List Bytes), (∀ x ∈ l, x.length = 1) → l.flatten.length = l.length := by
        intro l
        induction l with
        | nil => intro _; rfl
        | cons x l ih =>
          intro h
          rw [List.flatten_cons, List.length_append, h x (by simp), ih (fun y hy => h y (by simp [hy]))]
          simp; omega
      have tl : ∀ (l : List (Nat × Nat)), (l.map fun o => leBytes 4 o.1 ++ leBytes 4 o.2).flatten.length =
          l.length * 8 := by
        intro l
        induction l with
        | nil => rfl
        | cons x l ih =>
          rw [List.map_cons, List.flatten_cons, List.length_append, ih, List.length_append, leBytes_length,
            leBytes_length, List.length_cons]; omega
      simp only [List.length_cons, List.length_append, leBytes_length, tl, hol, hl,
        sum _ (fun x hx => by obtain ⟨p, hp', rfl⟩ := List.mem_map.1 hx; exact hk p hp'),
        sum _ (fun x hx => by obtain ⟨p, hp', rfl⟩ := List.mem_map.1 hx; exact hv' p hp'), List.length_map]
      omega
  · exact hl
  · exact (C109_map demoIndexed (by decide) (by decide) demoIndexed_small b hb 100 hl).1

/-! ### Sequences and sets -/

theorem writeSeqBodies_cut {bs : List Bytes} {b : Bytes} (hw : writeSeqBodies bs = .ok b)
    (h8 : 8 ≤ bs.length) (hlen : bs.length < 2 ^ 56) (hs : ∀ b ∈ bs, b.length < 2 ^ 32)
    (hne : ∀ i (_ : i + 1 < bs.length), bs[i] ≠ []) (n : Nat) (hn : n < b.length) : CutSeq b bs n := by
  rcases writeSeqBodies_ok hw with ⟨h, _⟩ | ⟨_, os, last, ho, rfl⟩
  · omega
  rw [seqOffsets_small hs 0 (by decide)] at ho
  split at ho
  case isFalse => cases ho
  case isTrue hfit =>
  simp only [Res.ok.injEq, Prod.mk.injEq, Nat.zero_add] at ho hfit
  obtain ⟨rfl, -⟩ := ho
  have hTl : (tbl (fieldOffsets 0 bs)).length = bs.length * 4 := by rw [tbl_length, fieldOffsets_length]
  have hbl : (1 :: (writeVarint bs.length ++ (tbl (fieldOffsets 0 bs) ++ bs.flatten)) : Bytes).length =
      1 + (writeVarint bs.length).length + bs.length * 4 + bs.flatten.length := by
    simp only [List.length_cons, List.length_append]; omega
  rw [hbl] at hn
  obtain ⟨init, x, rfl⟩ : ∃ init x, bs = init ++ [x] :=
    ⟨bs.dropLast, bs.getLast (by rintro rfl; simp at h8), (List.dropLast_concat_getLast _).symm⟩
  have hx : (init ++ [x]).getLastD [] = x := by simp
  have hf : (init ++ [x]).flatten.length = init.flatten.length + x.length := by simp
  have hi : (init ++ [x]).length = init.length + 1 := by simp
  constructor
  · intro hh
    rw [hbl] at hh
    have key := fun validate => seqWalker_cut_header hlen (List.take_append_drop n _).symm
      (by rw [List.length_take]; omega) validate
    exact ⟨key true, key false⟩
  · intro h1 h2
    rw [hx] at h2
    rw [hbl] at h1 h2 ⊢
    obtain ⟨m, rfl⟩ : ∃ m, n = 1 + (writeVarint (init ++ [x]).length).length + (init ++ [x]).length * 4 + m :=
      ⟨n - (1 + (writeVarint (init ++ [x]).length).length + (init ++ [x]).length * 4), by omega⟩
    have hd : (init ++ [x]).dropLast.flatten = init.flatten := by simp
    obtain ⟨o, ho, hv⟩ := seqWalker_cut_body hlen hfit hne (m := m) (by rw [hd]; omega)
    have e : (1 :: (writeVarint (init ++ [x]).length ++ (tbl (fieldOffsets 0 (init ++ [x])) ++
        (init ++ [x]).flatten)) : Bytes).take
          (1 + (writeVarint (init ++ [x]).length).length + (init ++ [x]).length * 4 + m) =
        1 :: (writeVarint (init ++ [x]).length ++ (tbl (fieldOffsets 0 (init ++ [x])) ++
          (init ++ [x]).flatten.take m)) := by
      rw [show 1 + (writeVarint (init ++ [x]).length).length + (init ++ [x]).length * 4 + m =
        ((writeVarint (init ++ [x]).length).length + ((tbl (fieldOffsets 0 (init ++ [x]))).length + m)) + 1 by omega,
        List.take_succ_cons, List.take_length_add_append, List.take_length_add_append]
    have hm : 1 + (writeVarint (init ++ [x]).length).length + (init ++ [x]).length * 4 + m +
        (init ++ [x]).flatten.length - (1 + (writeVarint (init ++ [x]).length).length +
          (init ++ [x]).length * 4 + (init ++ [x]).flatten.length) = m := by omega
    rw [hm, e]
    exact ⟨o, ho, hv⟩
  · intro h1
    rw [hx] at h1 ⊢
    rw [hbl] at h1 ⊢
    obtain ⟨m, hm, hm'⟩ : ∃ m, m < x.length ∧ n = 1 + (writeVarint (init ++ [x]).length).length +
        (init.length + 1) * 4 + init.flatten.length + m :=
      ⟨n - (1 + (writeVarint (init ++ [x]).length).length + (init.length + 1) * 4 + init.flatten.length),
        by omega, by omega⟩
    have e := seq_cut_last (init := init) (x := x) (m := m) (by omega)
    have hl : (x.take m).length = m := by rw [List.length_take]; omega
    have hi' : (init ++ [x.take m]).length = init.length + 1 := by simp
    have hs' : ∀ b ∈ init ++ [x.take m], b.length < 2 ^ 32 := by
      intro b hb
      rcases List.mem_append.1 hb with hb | hb
      · exact hs b (by simp [hb])
      · rw [List.mem_singleton.1 hb, hl]
        have := hs x (by simp)
        omega
    have hw' : writeSeqBodies (init ++ [x.take m]) = .ok (1 :: (writeVarint (init ++ [x.take m]).length ++
        (tbl (fieldOffsets 0 (init ++ [x.take m])) ++ (init ++ [x.take m]).flatten))) := by
      have hf' : (init ++ [x.take m]).flatten.length = init.flatten.length + m := by simp; omega
      unfold writeSeqBodies
      rw [if_neg (by simp only [offsetTableMinLen]; omega), seqOffsets_small hs' 0 (by decide),
        if_pos (by omega)]
      simp only [Res.ok_bind]
      rfl
    obtain ⟨w1, w2, w3⟩ := seqWalker_of_written hw' (by omega) (by omega) hs'
    rw [hm', e]
    refine ⟨_, w3 ?_, by simp, ?_, ?_⟩
    · intro i hi0
      have := hne i (by omega)
      rw [List.getElem_append_left (by omega)] at this ⊢
      exact this
    · intro i hi0
      have := w2 i (by omega)
      rw [List.getElem_append_left (by omega)] at this
      rw [List.getElem_append_left (by omega)]
      exact this
    · have := w2 init.length (by omega)
      rw [List.getElem_append_right (by omega)] at this
      rw [show (init ++ [x]).length - 1 = init.length by omega, this]
      simp only [Nat.sub_self, List.getElem_cons_zero]
      congr 2
      omega

/-- C109, sequences: of the encoding of at least eight elements, none of them empty but the last, a
proper prefix is refused unless it lacks only bytes of the last element.  It is then read as the same
sequence with a shorter last element. -/
theorem C109_seq (l : List α) (h8 : 8 ≤ l.length) (hlen : l.length < 2 ^ 56)
    (hsmall : SmallEach c.enc l) (es : List Bytes) (hes : encEach c.enc l = .ok es)
    (hne : ∀ e ∈ es.dropLast, e ≠ []) (b : Bytes)
    (h : serializeIndexedSeq c.enc l = .ok b) (n : Nat) (hn : n < b.length) : CutSeq b es n := by
  obtain ⟨bs, h1, h2⟩ := Res.bind_eq_ok.1 h
  rw [hes] at h1
  injection h1 with h1
  subst h1
  have hl := encEach_length hes
  refine writeSeqBodies_cut h2 (by omega) (by omega) ?_ (fun i hi => hne es[i] (by
    rw [List.dropLast_eq_take, List.mem_take_iff_getElem]; exact ⟨i, by omega, rfl⟩)) n hn
  intro x hx
  obtain ⟨a, ha, e⟩ := (encEach_mem hes x).1 hx
  exact hsmall a ha x e

/-- C109, sets: as for sequences, `es` being the encodings of the elements in the order they are
written. -/
theorem C109_set (s : List α) (h8 : 8 ≤ s.length) (hlen : s.length < 2 ^ 56)
    (hsmall : SmallEach c.enc s) (hne : ∀ a ∈ s, c.enc a ≠ .ok []) (b : Bytes)
    (h : serializeIndexedSet c.enc s = .ok b) :
    ∃ es, (∃ w, IndexedSeqWalker.fromPayload b = .ok w ∧ w.len = es.length ∧
        ∀ i (hi : i < es.length), w.elementBytes i = .ok es[i]) ∧
      ∀ n < b.length, CutSeq b es n := by
  obtain ⟨bs, l', h1, hp, he, hw⟩ := serializeIndexedSet_ok h
  generalize (bs.mergeSort fun a b => (cmpBytes a b).isLE) = es at he hw
  have hl : es.length = s.length := by rw [encEach_length he, hp.length_eq]
  have hs : ∀ b ∈ es, b.length < 2 ^ 32 := by
    intro x hx
    obtain ⟨a, ha, e⟩ := (encEach_mem he x).1 hx
    exact hsmall a (hp.mem_iff.2 ha) x e
  have hne' : ∀ i (_ : i + 1 < es.length), es[i] ≠ [] := by
    intro i hi e0
    obtain ⟨a, ha, e⟩ := (encEach_mem he es[i]).1 (List.getElem_mem _)
    exact hne a (hp.mem_iff.2 ha) (by rw [e, e0])
  obtain ⟨w1, w2, w3⟩ := seqWalker_of_written hw (by omega) (by omega) hs
  exact ⟨es, ⟨_, w3 hne', rfl, w2⟩, fun n hn =>
    writeSeqBodies_cut hw (by omega) (by omega) hs hne' n hn⟩

/-- The last element cut away, and the last two. -/
example : ∃ (b : Bytes) (w : IndexedSeqWalker), serializeIndexedSeq (intC ⟨false, true⟩ .u16).enc demoSeq = .ok b ∧
    IndexedSeqWalker.fromPayload (b.take (b.length - 1)) = .ok w ∧ w.elementBytes 7 = .ok [250] ∧
    w.elementBytes 8 = .ok [] ∧
    (∃ o, IndexedSeqWalker.fromPayload (b.take (b.length - 2)) = .err (.offsetOutOfRange o 13)) ∧
    IndexedSeqWalker.fromPayload (b.take (b.length - 16)) = .err .overrun := by
  obtain ⟨b, hb⟩ := (C45_seq_partial demoSeq (by decide) demoSeq_small _ demoSeq_bodies).1 (by decide)
  have hlen : b.length = 53 := by
    have e : serializeIndexedSeq (intC ⟨false, true⟩ .u16).enc demoSeq =
        writeSeqBodies [[1], [251, 44, 1], [2], [251, 255, 255], [0], [7], [251, 251, 0], [250], [9]] := by
      unfold serializeIndexedSeq; rw [demoSeq_bodies]; rfl
    rw [e] at hb
    rcases writeSeqBodies_ok hb with ⟨h, _⟩ | ⟨_, os, last, ho, rfl⟩
    · simp at h
    · have := seqOffsets_length ho
      simp only [List.length_cons, List.length_append, tbl_length, this]
      decide
  have key := fun n (hn : n < b.length) => C109_seq demoSeq (by decide) (by decide) demoSeq_small _
    demoSeq_bodies (by decide) b hb n hn
  obtain ⟨w, w1, w2, w3, w4⟩ := (key 52 (by omega)).ending (by rw [hlen]; decide)
  obtain ⟨o, o1, o2⟩ := (key 51 (by omega)).bodies (by rw [hlen]; decide) (by rw [hlen]; decide)
  refine ⟨b, w, hb, by rw [hlen]; exact w1, w3 7 (by decide), ?_, ⟨o, ?_⟩,
    by rw [hlen]; exact ((key 37 (by omega)).header (by rw [hlen]; decide)).1⟩
  · have := w4
    rw [hlen] at this
    exact this
  · have := o2
    rw [hlen] at this ⊢
    exact this

/-! ### Structs -/

/-- C109, structs: the first `n` bytes of the payload of an indexed struct, whose fields are not empty
except perhaps the last, are refused by the validating walker unless they lack only bytes of the last
field; every other field is then intact. -/
theorem C109_struct (fs : List Bytes) (rev : Nat) (h0 : fs ≠ [])
    (hlen : (indexedStructPayload fs).length < 2 ^ 32) (hne : ∀ f ∈ fs.dropLast, f ≠ []) (n : Nat)
    (hn : n < (indexedStructPayload fs).length) :
    (n < 4 * fs.length →
      IndexedStructWalker.fromPayload ((indexedStructPayload fs).take n) rev fs.length = .err .overrun ∧
      IndexedStructWalker.fromPayloadUnvalidated ((indexedStructPayload fs).take n) rev fs.length =
        .err .overrun) ∧
    (4 * fs.length ≤ n → n + (fs.getLastD []).length < (indexedStructPayload fs).length →
      ∃ o, n < o ∧ IndexedStructWalker.fromPayload ((indexedStructPayload fs).take n) rev fs.length =
        .err (.offsetOutOfRange o n)) ∧
    ((indexedStructPayload fs).length ≤ n + (fs.getLastD []).length →
      ∃ w, IndexedStructWalker.fromPayload ((indexedStructPayload fs).take n) rev fs.length = .ok w ∧
        (∀ i (_ : i + 1 < fs.length), w.fieldBytes i = .ok fs[i]) ∧
        w.fieldBytes (fs.length - 1) = .ok ((fs.getLastD []).take
          (n + (fs.getLastD []).length - (indexedStructPayload fs).length))) := by
  have hbl := indexedStructPayload_length fs
  obtain ⟨init, x, rfl⟩ : ∃ init x, fs = init ++ [x] :=
    ⟨fs.dropLast, fs.getLast h0, (List.dropLast_concat_getLast _).symm⟩
  have hx : (init ++ [x]).getLastD [] = x := by simp
  have hf : (init ++ [x]).flatten.length = init.flatten.length + x.length := by simp
  have hi : (init ++ [x]).length = init.length + 1 := by simp
  have hd : (init ++ [x]).dropLast = init := by simp
  rw [hx]
  refine ⟨?_, ?_, ?_⟩
  · intro h
    unfold IndexedStructWalker.fromPayload IndexedStructWalker.fromPayloadUnvalidated
    simp only
    rw [List.length_take, if_pos (by omega), if_pos (by omega)]
    exact ⟨rfl, rfl⟩
  · intro h1 h2
    exact structWalker_cut_body rev hlen hne (by omega) (by rw [hd]; omega)
  · intro h1
    obtain ⟨m, hm, hm'⟩ : ∃ m, m < x.length ∧ n = (init.length + 1) * 4 + init.flatten.length + m :=
      ⟨n - ((init.length + 1) * 4 + init.flatten.length), by omega, by omega⟩
    have e := struct_cut_last (init := init) (x := x) (m := m) (by omega)
    have hi' : (init ++ [x.take m]).length = init.length + 1 := by simp
    have hlen' : (indexedStructPayload (init ++ [x.take m])).length < 2 ^ 32 := by
      rw [← e, List.length_take]; omega
    obtain ⟨w, w1, w2, -⟩ := C34_fields (init ++ [x.take m]) rev hlen'
    have w0 := (C34_validated_iff (init ++ [x.take m]) rev hlen' w).2 ⟨w1, by
      rw [List.dropLast_concat]; rwa [hd] at hne⟩
    rw [hm', e]
    refine ⟨w, by rw [hi, ← hi']; exact w0, ?_, ?_⟩
    · intro i hi0
      have := w2 i (by omega)
      rw [List.getElem_append_left (by omega)] at this
      rw [List.getElem_append_left (by omega)]
      exact this
    · have := w2 init.length (by omega)
      rw [List.getElem_append_right (by omega)] at this
      rw [show (init ++ [x]).length - 1 = init.length by omega, this]
      simp only [Nat.sub_self, List.getElem_cons_zero]
      congr 2
      omega

example : ∃ o, 14 < o ∧
    IndexedStructWalker.fromPayload ((indexedStructPayload [[1, 2], [3], [4, 5, 6]]).take 14) 1 3 =
      .err (.offsetOutOfRange o 14) :=
  (C109_struct [[1, 2], [3], [4, 5, 6]] 1 (by decide) (by decide) (by decide) 14 (by decide)).2.1 (by decide) (by decide)

example : IndexedStructWalker.fromPayload ((indexedStructPayload [[1, 2], [3], [4, 5, 6]]).take 16) 1 3 =
      .ok ⟨(indexedStructPayload [[1, 2], [3], [4, 5, 6]]).take 16, 3, 1⟩ ∧
    (⟨(indexedStructPayload [[1, 2], [3], [4, 5, 6]]).take 16, 3, 1⟩ : IndexedStructWalker).fieldBytes 2 =
      .ok [4] ∧
    IndexedStructWalker.fromPayload ((indexedStructPayload [[1, 2], [3], [4, 5, 6]]).take 14) 1 3 =
      .err (.offsetOutOfRange 15 14) := by decide +kernel

/-- C109, derived walkers: `into_<field>_bytes` of an indexed struct, on any bytes.  With `offs` the
entries of the offset table that matter, it gives the bytes between the field's offset and the next,
the last field ending with the payload; offsets out of order or past the end, and a table too short to
hold them, are a deserialisation error. -/
theorem C109_into_field_bytes (bytes : Bytes) (fc idx : Nat) (f : FieldDecl V) (hidx : idx < fc)
    (r : Bytes) :
    (bytes.length < 4 * min fc (idx + 2) →
      (StructRepr.indexed bytes fc).intoFieldBytes idx f r = .err .deserialize) ∧
    ∀ (offs : List Nat) (rest : Bytes), (∀ o ∈ offs, o < 2 ^ 32) → offs.length = min fc (idx + 2) →
      bytes = (offs.map (leBytes 4)).flatten ++ rest →
      (offs.getD idx 0 ≤ offs.getD (idx + 1) bytes.length ∧ offs.getD (idx + 1) bytes.length ≤ bytes.length →
        (StructRepr.indexed bytes fc).intoFieldBytes idx f r =
          .ok ((bytes.take (offs.getD (idx + 1) bytes.length)).drop (offs.getD idx 0), r)) ∧
      (¬ (offs.getD idx 0 ≤ offs.getD (idx + 1) bytes.length ∧
          offs.getD (idx + 1) bytes.length ≤ bytes.length) →
        (StructRepr.indexed bytes fc).intoFieldBytes idx f r = .err .deserialize) := by
  have hun : (StructRepr.indexed bytes fc).intoFieldBytes idx f r =
      Rd.lift (StructRepr.checkedFieldSlice bytes fc idx) r := rfl
  rw [hun]
  refine ⟨?_, ?_⟩
  · intro h
    unfold StructRepr.checkedFieldSlice
    rw [if_pos (by split <;> omega)]; rfl
  · intro offs rest hb hl he
    have hbl : bytes.length = offs.length * 4 + rest.length := by
      rw [he, List.length_append]
      have := tbl_length offs
      unfold tbl at this
      omega
    have hu : ∀ i (hi : i < offs.length), u32At bytes (i * 4) = offs[i] := by
      intro i hi
      rw [he]
      exact u32At_tbl offs rest i hi (hb _ (List.getElem_mem _))
    have h1 : offs.getD idx 0 = u32At bytes (idx * 4) := by
      rw [hu idx (by omega), List.getD_eq_getElem?_getD, List.getElem?_eq_getElem (by omega)]; rfl
    have h2 : (if idx + 1 < fc then decodeU32At bytes (idx * 4 + 4) else .ok bytes.length) =
        .ok (offs.getD (idx + 1) bytes.length) := by
      by_cases h : idx + 1 < fc
      · rw [if_pos h, decodeU32At_ok (by omega), show idx * 4 + 4 = (idx + 1) * 4 by omega, hu _ (by omega),
          List.getD_eq_getElem?_getD, List.getElem?_eq_getElem (by omega)]; rfl
      · rw [if_neg h, List.getD_eq_getElem?_getD, List.getElem?_eq_none (by omega)]; rfl
    have run : StructRepr.checkedFieldSlice bytes fc idx =
        if offs.getD idx 0 > offs.getD (idx + 1) bytes.length ∨
          offs.getD (idx + 1) bytes.length > bytes.length then .err .deserialize
        else sliceR bytes (offs.getD idx 0) (offs.getD (idx + 1) bytes.length) := by
      unfold StructRepr.checkedFieldSlice
      rw [if_neg (by split <;> omega), decodeU32At_ok (by omega)]
      simp only [Res.ok_bind]
      rw [h2, ← h1]
      rfl
    rw [run]
    constructor
    · intro h
      rw [if_neg (by omega), sliceR_ok h.1 h.2]; rfl
    · intro h
      rw [if_pos (by omega)]; rfl

end

end Revision
