import Verif.Spec.DeriveWalk
import Verif.Proofs.Derive
import Verif.Proofs.DeriveEnum
import Verif.Proofs.Offsets

/-! Helper lemmas about generated walkers. -/

namespace Revision

variable {V : Type}

/-! ### Decoding a struct body without bindings -/

/-- The fields decoded, with their values. -/
def decodePairs (live removed : FieldDecl V → Rd V) (cur tgt : Nat) :
    List (FieldDecl V) → Rd (List (FieldDecl V × V))
  | [] => pure []
  | f :: fs =>
    if f.existsAt cur || f.existsAt tgt then do
      let v ← (if f.existsAt cur then (if f.existsAt tgt then live f else removed f)
        else Rd.lift (f.dflt cur))
      let ps ← decodePairs live removed cur tgt fs
      pure ((f, v) :: ps)
    else decodePairs live removed cur tgt fs

theorem decodeFields_pairs (live removed : FieldDecl V → Rd V) (cur tgt : Nat) :
    ∀ (fs : List (FieldDecl V)) (env : Binds V),
    decodeFields live removed cur tgt fs env =
      (decodePairs live removed cur tgt fs >>= fun ps => pure ((bindsOf ps).reverse ++ env))
  | [], env => rfl
  | f :: fs, env => by
    unfold decodeFields decodePairs
    cases ha : f.existsAt cur <;> cases hb : f.existsAt tgt <;>
      simp [decodeFields_pairs live removed cur tgt fs, bindsOf]

theorem decodePairs_fields {live removed : FieldDecl V → Rd V} {cur tgt : Nat} :
    ∀ (fs : List (FieldDecl V)) (s r : Bytes) (ps : List (FieldDecl V × V)),
    decodePairs live removed cur tgt fs s = .ok (ps, r) →
    ps.map (·.1) = fs.filter (fun f => f.existsAt cur || f.existsAt tgt)
  | [], s, r, ps, h => by cases h; rfl
  | f :: fs, s, r, ps, h => by
    unfold decodePairs at h
    by_cases hc : (f.existsAt cur || f.existsAt tgt) = true
    · rw [if_pos hc] at h
      obtain ⟨v, s1, _, h⟩ := Rd.bind_ok.1 h
      obtain ⟨ps', s2, h2, h⟩ := Rd.bind_ok.1 h
      cases h
      rw [List.map_cons, decodePairs_fields fs _ _ _ h2, List.filter_cons_of_pos (by simpa using hc)]
    · rw [if_neg hc] at h
      rw [decodePairs_fields fs _ _ _ h, List.filter_cons_of_neg (by simpa using hc)]

/-- With distinct names, decoding is: read the fields in order, build the value, run the converts. -/
theorem decodeStructBody_pairs (live removed : FieldDecl V → Rd V) (cur tgt : Nat) (fs : List (FieldDecl V))
    (hn : DistinctNames fs cur tgt) :
    decodeStructBody live removed cur tgt fs = (decodePairs live removed cur tgt fs >>= fun all =>
      Rd.lift (applyConverts cur (all.filter fun p => !p.1.existsAt tgt)
        ((all.filter fun p => p.1.existsAt tgt).map (·.2)))) := by
  ext s : 1
  unfold decodeStructBody
  rw [decodeFields_pairs, Rd.bind_assoc]
  cases hd : decodePairs live removed cur tgt fs s with
  | err e => rw [Rd.bind_of_err hd, Rd.bind_of_err hd]
  | panic => rw [Rd.bind_of_panic hd, Rd.bind_of_panic hd]
  | ok p =>
    obtain ⟨all, r⟩ := p
    rw [Rd.bind_of_ok hd, Rd.bind_of_ok hd]
    have hf := decodePairs_fields fs _ _ _ hd
    have hk : (((bindsOf all).reverse).map (·.1)).Nodup := by
      rw [List.map_reverse, nodup_reverse_iff]
      unfold DistinctNames at hn
      rw [← hf, List.map_map] at hn
      unfold bindsOf
      rw [List.map_map]
      exact hn
    have hlook : ∀ q ∈ all, (bindsOf all).reverse.lookup q.1.name = some q.2 := by
      intro q hq
      refine lookup_eq_some_of_mem _ hk _ _ ?_
      exact List.mem_reverse.2 (List.mem_map.2 ⟨q, hq, rfl⟩)
    rw [Rd.pure_bind, List.append_nil,
      construct_eq tgt _ _ fs all (fun f hf => by simp [hf]) hf hlook,
      Rd.bind_of_ok (a := (all.filter fun q => q.1.existsAt tgt).map (·.2)) (r := r) rfl,
      runConverts_eq cur tgt _ fs all _ hf hlook]

/-- No field of revision `cur` has been removed. -/
def NoneRemoved (fs : List (FieldDecl V)) (cur tgt : Nat) : Prop :=
  ∀ f ∈ fs, f.existsAt cur = true → f.existsAt tgt = true

theorem decodeStructBody_kept (live removed : FieldDecl V → Rd V) (cur tgt : Nat) (fs : List (FieldDecl V))
    (hn : DistinctNames fs cur tgt) (hk : NoneRemoved fs cur tgt) :
    decodeStructBody live removed cur tgt fs =
      (decodePairs live removed cur tgt fs >>= fun all => pure (all.map (·.2))) := by
  rw [decodeStructBody_pairs live removed cur tgt fs hn]
  ext s : 1
  cases hd : decodePairs live removed cur tgt fs s with
  | err e => rw [Rd.bind_of_err hd, Rd.bind_of_err hd]
  | panic => rw [Rd.bind_of_panic hd, Rd.bind_of_panic hd]
  | ok p =>
    obtain ⟨all, r⟩ := p
    rw [Rd.bind_of_ok hd, Rd.bind_of_ok hd]
    have hf := decodePairs_fields fs _ _ _ hd
    have hall : ∀ p ∈ all, p.1.existsAt tgt = true := by
      intro p hp
      have hm : p.1 ∈ all.map (·.1) := List.mem_map.2 ⟨p, hp, rfl⟩
      rw [hf, List.mem_filter] at hm
      by_cases hc : p.1.existsAt cur = true
      · exact hk _ hm.1 hc
      · simpa [hc] using hm.2
    have h1 : all.filter (fun p => !p.1.existsAt tgt) = [] := by
      rw [List.filter_eq_nil_iff]; intro p hp; simp [hall p hp]
    have h2 : all.filter (fun p => p.1.existsAt tgt) = all := List.filter_eq_self.2 hall
    rw [h1, h2]
    rfl

theorem present_eq {f : FieldDecl V} {cur tgt : Nat} (hle : cur ≤ tgt) (ht : f.existsAt tgt = true) :
    StructRepr.present f cur = f.existsAt cur := by
  unfold StructRepr.present FieldDecl.existsAt Revision.existsAt
  unfold FieldDecl.existsAt Revision.existsAt at ht
  simp only [Bool.and_eq_true, decide_eq_true_eq] at ht
  have : f.opts.stop.getD (2 ^ 64 - 1) > cur := by omega
  simp [this]

/-- Decoding field by field from the wire is decoding the struct body. -/
theorem decodeEach_wire (removed : FieldDecl V → Rd V) {cur tgt : Nat} (hle : cur ≤ tgt) :
    ∀ (fs : List (FieldDecl V)) (idx : Nat), NoneRemoved fs cur tgt →
    decodeEach idx (aliveFields fs tgt) (.wire cur) =
      (decodePairs (fun f => f.optimisedC.dec) removed cur tgt fs >>= fun all => pure (all.map (·.2)))
  | [], idx, _ => rfl
  | f :: fs, idx, hk => by
    have ih := fun i => decodeEach_wire removed hle fs i (fun g hg => hk g (List.mem_cons_of_mem _ hg))
    unfold aliveFields at ih ⊢
    unfold decodePairs
    by_cases ht : f.existsAt tgt = true
    · rw [List.filter_cons_of_pos (by simpa using ht)]
      unfold decodeEach
      simp only [StructRepr.decodeField, present_eq hle ht, ht, Bool.or_true, if_true, ih, Rd.bind_assoc,
        Rd.pure_bind, List.map_cons]
    · have hc : f.existsAt cur = false := by
        cases hc : f.existsAt cur with
        | false => rfl
        | true => exact absurd (hk f List.mem_cons_self hc) ht
      rw [List.filter_cons_of_neg (by simpa using ht), if_neg (by simp [hc, ht])]
      exact ih idx

/-! ### Constructing the walker -/

theorem ValidHistory.find_optimised {h : List Entry} (hv : ValidHistory h) {e : Entry} (he : e ∈ h) :
    h.find? (fun x => x.optimised && x.revision == e.revision) = if e.optimised then some e else none := by
  have hu : ∀ x ∈ h, x.revision = e.revision → x = e := by
    intro x hx hr
    have h1 := hv.find he
    have h2 := hv.find hx
    rw [hr, h1] at h2
    exact (Option.some.inj h2).symm
  split
  · rename_i ho
    refine find?_unique he (by simp [ho]) ?_
    intro x hx hp
    simp only [Bool.and_eq_true, beq_iff_eq] at hp
    exact hu x hx hp.2
  · rename_i ho
    rw [List.find?_eq_none]
    intro x hx hp
    simp only [Bool.and_eq_true, beq_iff_eq] at hp
    rw [hu x hx hp.2] at hp
    exact ho hp.1

theorem readBorrowed_append (b t : Bytes) {n : Nat} (h : n = b.length) :
    readBorrowed n (b ++ t) = .ok (b, t) := by
  subst h
  simp [readBorrowed, Rd.bind_run, Rd.peek, Rd.advance]

theorem EndsConverted.noneRemoved {fs : List (FieldDecl V)} (he : EndsConverted fs) {h : List Entry} {r : Nat}
    (hc : NotConverted h fs r) (hle : r ≤ h.length) (hN : h.length < 2 ^ 64 - 1) : NoneRemoved fs r h.length := by
  intro f hf ha
  rcases hc with hc | rfl
  · have hcf : f.opts.convert = none := by
      unfold structHasConvert at hc
      rw [List.any_eq_false] at hc
      simpa using hc f hf
    have hs : f.opts.stop = none := by
      cases hs : f.opts.stop with
      | none => rfl
      | some x => exact absurd hcf (he f hf (by simp [hs]))
    unfold FieldDecl.existsAt Revision.existsAt at ha ⊢
    rw [hs] at ha ⊢
    simp only [Bool.and_eq_true, decide_eq_true_eq, Option.getD_none] at ha ⊢
    omega
  · exact ha

theorem walkStruct_direct (cfg : Cfg) {h : List Entry} (hh : ValidHistory h) {fs : List (FieldDecl V)}
    {e : Entry} (he : e ∈ h) (hc : NotConverted h fs e.revision) {s t : Bytes}
    (hs : readU16 cfg s = .ok (e.revision, t)) :
    walkStruct cfg h fs s =
      (if e.optimised then
        if e.indexedStruct then (do
          let len ← readVarlenLen
          let payload ← readBorrowed len
          pure (.indexed payload (aliveCount fs h.length)) : Rd StructRepr)
        else (do
          let _ ← readVarlenLen
          pure (.wire e.revision))
      else pure (.wire e.revision)) t := by
  have h1 := hh.revision_le he
  unfold walkStruct
  rw [Rd.bind_of_ok hs, hh.latest_eq, if_neg (by omega)]
  have hg : (structHasConvert fs && e.revision != h.length) = false := by
    rcases hc with hc | hc <;> simp [hc]
  simp only [hg, Bool.false_eq_true, if_false, hh.find_optimised he]
  by_cases ho : e.optimised
  · simp only [ho, if_true]
  · simp only [ho, Bool.false_eq_true, if_false]

theorem afterHeader_hit {h : List Entry} (hv : ValidHistory h) {e : Entry} (he : e ∈ h) (arm : Entry → Rd α) :
    afterHeader h arm e.revision = arm e := by
  unfold afterHeader; simp only [hv.find he]

/-! ### Indexed structs -/

/-- The start of field `i` in the payload. -/
def offsetOf (bs : List Bytes) (i : Nat) : Nat := 4 * bs.length + ((bs.take i).flatten).length

theorem offsetTable_tbl (bs : List Bytes) :
    offsetTable bs = tbl ((List.range bs.length).map (offsetOf bs)) := by
  unfold offsetTable tbl offsetOf
  rw [List.map_map, List.flatMap_def]
  rfl

theorem offsetTable_length (bs : List Bytes) : (offsetTable bs).length = 4 * bs.length := by
  rw [offsetTable_eq, offsetsFrom_length]

theorem flatten_take_le (bs : List Bytes) (i : Nat) : ((bs.take i).flatten).length ≤ bs.flatten.length := by
  conv => rhs; rw [← List.take_append_drop i bs, List.flatten_append, List.length_append]
  omega

theorem decodeU32At_offset (bs : List Bytes) (rest : Bytes) {i : Nat} (hi : i < bs.length)
    (hlt : offsetOf bs i < 2 ^ 32) :
    decodeU32At (offsetTable bs ++ rest) (i * 4) = .ok (offsetOf bs i) := by
  rw [decodeU32At_ok (by rw [List.length_append, offsetTable_length]; omega), offsetTable_tbl,
    u32At_tbl _ _ _ (by simpa using hi) (by simpa using hlt)]
  simp

theorem slice_offset (bs : List Bytes) {i : Nat} (hi : i < bs.length) :
    slice (offsetTable bs ++ bs.flatten) (offsetOf bs i) (offsetOf bs (i + 1)) = bs[i] := by
  have hsplit : bs.flatten = (bs.take i).flatten ++ (bs[i] ++ (bs.drop (i + 1)).flatten) := by
    conv => lhs; rw [← List.take_append_drop i bs, List.drop_eq_getElem_cons hi]
    rw [List.flatten_append, List.flatten_cons]
  rw [hsplit, ← List.append_assoc]
  refine slice_append_mid _ _ _ ?_ ?_
  · rw [List.length_append, offsetTable_length]; rfl
  · unfold offsetOf
    rw [List.take_add_one, List.getElem?_eq_getElem hi]
    simp only [Option.toList_some, List.flatten_append, List.length_append]
    simp; omega

theorem offsetOf_le (bs : List Bytes) (i : Nat) : offsetOf bs i ≤ (offsetTable bs ++ bs.flatten).length := by
  unfold offsetOf
  rw [List.length_append, offsetTable_length]
  have := flatten_take_le bs i
  omega

theorem offsetOf_mono (bs : List Bytes) (i : Nat) : offsetOf bs i ≤ offsetOf bs (i + 1) := by
  unfold offsetOf
  have : (bs.take i).flatten.length ≤ (bs.take (i + 1)).flatten.length := by
    rw [List.take_add_one, List.flatten_append, List.length_append]; omega
  omega

theorem offsetOf_end (bs : List Bytes) : offsetOf bs bs.length = (offsetTable bs ++ bs.flatten).length := by
  unfold offsetOf
  rw [List.take_length, List.length_append, offsetTable_length]

theorem fieldSlice_run (bs : List Bytes) (hlt : (offsetTable bs ++ bs.flatten).length < 2 ^ 32) {i : Nat}
    (hi : i < bs.length) :
    StructRepr.fieldSlice (offsetTable bs ++ bs.flatten) bs.length i = .ok bs[i] := by
  unfold StructRepr.fieldSlice
  have h0 := offsetOf_le bs i
  rw [decodeU32At_offset bs _ hi (by omega), Res.ok_bind]
  have hstop : (if i + 1 < bs.length then decodeU32At (offsetTable bs ++ bs.flatten) (i * 4 + 4)
      else .ok (offsetTable bs ++ bs.flatten).length) = .ok (offsetOf bs (i + 1)) := by
    split
    · rename_i hi'
      have h1 := offsetOf_le bs (i + 1)
      have e : i * 4 + 4 = (i + 1) * 4 := by omega
      rw [e, decodeU32At_offset bs _ hi' (by omega)]
    · have e : i + 1 = bs.length := by omega
      rw [e, offsetOf_end]
  rw [hstop, Res.ok_bind, sliceR_ok (offsetOf_mono bs i) (offsetOf_le bs _), slice_offset bs hi]

theorem checkedFieldSlice_run (bs : List Bytes) (hlt : (offsetTable bs ++ bs.flatten).length < 2 ^ 32) {i : Nat}
    (hi : i < bs.length) :
    StructRepr.checkedFieldSlice (offsetTable bs ++ bs.flatten) bs.length i = .ok bs[i] := by
  unfold StructRepr.checkedFieldSlice
  have h0 := offsetOf_le bs i
  have htl := offsetTable_length bs
  rw [if_neg (by rw [List.length_append]; split <;> omega), decodeU32At_offset bs _ hi (by omega), Res.ok_bind]
  have hstop : (if i + 1 < bs.length then decodeU32At (offsetTable bs ++ bs.flatten) (i * 4 + 4)
      else .ok (offsetTable bs ++ bs.flatten).length) = .ok (offsetOf bs (i + 1)) := by
    split
    · rename_i hi'
      have h1 := offsetOf_le bs (i + 1)
      have e : i * 4 + 4 = (i + 1) * 4 := by omega
      rw [e, decodeU32At_offset bs _ hi' (by omega)]
    · have e : i + 1 = bs.length := by omega
      rw [e, offsetOf_end]
  have h1 := offsetOf_mono bs i
  have h2 := offsetOf_le bs (i + 1)
  rw [hstop, Res.ok_bind, if_neg (by omega), sliceR_ok h1 h2, slice_offset bs hi]

/-- Each field's value is read back from its own bytes. -/
theorem Encodes.get {c : FieldDecl V → Codec V} {fs vs bs} (h : Encodes c fs vs bs) :
    ∀ (i : Nat) (hf : i < fs.length) (hv : i < vs.length) (hb : i < bs.length),
      (c fs[i]).enc vs[i] = .ok bs[i] := by
  induction h with
  | nil => intro i hf; simp at hf
  | cons h1 _ ih =>
    intro i hf hv hb
    cases i with
    | zero => exact h1
    | succ i => exact ih i (by simpa using hf) (by simpa using hv) (by simpa using hb)

theorem AllValid.get {c : FieldDecl V → Codec V} {fs vs} (h : AllValid c fs vs) :
    ∀ (i : Nat) (hf : i < fs.length) (hv : i < vs.length), (c fs[i]).valid vs[i] := by
  induction h with
  | nil => intro i hf; simp at hf
  | cons h1 _ ih =>
    intro i hf hv
    cases i with
    | zero => exact h1
    | succ i => exact ih i (by simpa using hf) (by simpa using hv)

theorem decodeField_indexed {fs : List (FieldDecl V)} {vs : List V} {bs : List Bytes}
    (hrt : ∀ f ∈ fs, ReadsBack (fun f => f.optimisedC) (fun f => f.plain.dec) f)
    (hv : AllValid (fun f => f.optimisedC) fs vs) (he : Encodes (fun f => f.optimisedC) fs vs bs)
    (hlt : (offsetTable bs ++ bs.flatten).length < 2 ^ 32) (i : Nat) (hi : i < fs.length)
    (hiv : i < vs.length) (t : Bytes) :
    (StructRepr.indexed (offsetTable bs ++ bs.flatten) fs.length).decodeField i fs[i] t =
      .ok ((vs[i], .indexed (offsetTable bs ++ bs.flatten) fs.length), t) := by
  have hl := he.length_eq
  have hib : i < bs.length := by omega
  unfold StructRepr.decodeField
  have hs := fieldSlice_run bs hlt hib
  rw [hl.2] at hs
  have hd := hrt fs[i] (List.getElem_mem hi) vs[i] bs[i] (hv.get i hi hiv) (he.get i hi hiv hib) []
  rw [List.append_nil] at hd
  simp only [hs, Rd.within_of_ok hd, Rd.lift_ok, Rd.pure_bind]
  rfl

theorem decodeEach_indexed {fs : List (FieldDecl V)} {vs : List V} {bs : List Bytes}
    (hrt : ∀ f ∈ fs, ReadsBack (fun f => f.optimisedC) (fun f => f.plain.dec) f)
    (hv : AllValid (fun f => f.optimisedC) fs vs) (he : Encodes (fun f => f.optimisedC) fs vs bs)
    (hlt : (offsetTable bs ++ bs.flatten).length < 2 ^ 32) (t : Bytes) :
    ∀ (n idx : Nat), idx + n = fs.length →
      decodeEach idx (fs.drop idx) (.indexed (offsetTable bs ++ bs.flatten) fs.length) t =
        .ok (vs.drop idx, t)
  | 0, idx, hn => by
    have hl := hv.length_eq
    rw [List.drop_of_length_le (by omega), List.drop_of_length_le (by omega)]; rfl
  | n + 1, idx, hn => by
    have hl := hv.length_eq
    have hi : idx < fs.length := by omega
    rw [List.drop_eq_getElem_cons hi, List.drop_eq_getElem_cons (l := vs) (by omega)]
    unfold decodeEach
    rw [Rd.bind_of_ok (decodeField_indexed hrt hv he hlt idx hi (by omega) t),
      Rd.bind_of_ok (decodeEach_indexed hrt hv he hlt t n (idx + 1) (by omega))]
    rfl

/-! ### Materialised walkers -/

theorem atCursor_run {m : Rd α} {a : α} (p b t : Bytes) (h : ∀ t, m (b ++ t) = .ok (a, t)) :
    StructRepr.atCursor m (p ++ (b ++ t)) p.length = .ok (a, (p ++ b).length) := by
  unfold StructRepr.atCursor
  rw [sliceR_ok (by simp) (Nat.le_refl _), slice_to_end, List.drop_left, Res.ok_bind]
  simp only [h t]
  simp; omega

theorem decodeEach_converted {c : FieldDecl V → Codec V} {fs vs bs} (hv : AllValid c fs vs)
    (he : Encodes c fs vs bs) : ∀ (_ : ∀ f ∈ fs, ReadsBack c (fun f => f.plain.dec) f) (idx : Nat) (p t : Bytes),
    decodeEach idx fs (.converted (p ++ bs.flatten) p.length) t = .ok (vs, t) := by
  induction he with
  | nil => intros; rfl
  | @cons f fs v vs b bs h1 h2 ih =>
    intro hrt idx p t
    cases hv with
    | cons hv1 hv2 =>
    unfold decodeEach
    have hd : StructRepr.decodeField idx f (.converted (p ++ (b :: bs).flatten) p.length) t =
        .ok ((v, .converted (p ++ (b :: bs).flatten) (p ++ b).length), t) := by
      unfold StructRepr.decodeField
      have hcur := atCursor_run (m := f.plain.dec) p b bs.flatten
        (fun t => hrt f List.mem_cons_self v b hv1 h1 t)
      simp only [List.flatten_cons, hcur, Rd.lift_ok, Rd.pure_bind]
      rfl
    rw [Rd.bind_of_ok hd]
    have := ih hv2 (fun g hg => hrt g (List.mem_cons_of_mem _ hg)) (idx + 1) (p ++ b) t
    rw [List.flatten_cons, ← List.append_assoc, Rd.bind_of_ok this]
    rfl

end Revision
