import Verif.Props.Optimised
import Verif.Props.IndexedWalk
import Verif.Proofs.Damage

/-! C121: damage inside one field, element, key or value of indexed data stays there. -/

namespace Revision

theorem steps_le {f : Nat → Nat} {n : Nat} (hm : ∀ i < n, f i ≤ f (i + 1)) {i j : Nat} (hij : i ≤ j)
    (hj : j ≤ n) : f i ≤ f j := by
  induction j with
  | zero => have : i = 0 := by omega
            subst this; exact Nat.le_refl _
  | succ j ih =>
    by_cases e : i = j + 1
    · subst e; exact Nat.le_refl _
    · exact Nat.le_trans (ih (by omega) (by omega)) (hm j (by omega))

/-! ### Structs -/

/-- Where field `i` of a struct payload starts, or the end of the payload. -/
def structOff (p : Bytes) (n i : Nat) : Nat := if i < n then u32At p (i * 4) else p.length

theorem fieldBytes_off {p : Bytes} {rev n : Nat} (hn : n * 4 ≤ p.length) {i : Nat} (hi : i < n) :
    IndexedStructWalker.fieldBytes ⟨p, n, rev⟩ i =
      sliceR p (structOff p n i) (structOff p n (i + 1)) := by
  rw [IndexedStructWalker.fieldBytes]
  simp only [IndexedStructWalker.offset, ge_iff_le]
  rw [if_neg (by omega), decodeU32At_ok (by omega)]
  simp only [Res.ok_bind]
  unfold structOff
  rw [if_pos hi]
  by_cases h1 : i + 1 < n
  · rw [if_pos h1, if_pos h1, decodeU32At_ok (by omega)]; rfl
  · rw [if_neg h1, if_neg h1]

/-- C121: overwriting one field of an accepted indexed struct leaves the struct acceptable and every
other field as it was, whatever the field is overwritten with. -/
theorem C121_struct (p : Bytes) (rev n : Nat) (w : IndexedStructWalker)
    (h : IndexedStructWalker.fromPayload p rev n = .ok w) (j : Nat) (f : Bytes)
    (hj : w.fieldBytes j = .ok f) :
    ∃ a c, p = a ++ f ++ c ∧ ∀ x : Bytes, x.length = f.length →
      ∃ w', IndexedStructWalker.fromPayload (a ++ x ++ c) rev n = .ok w' ∧
        w'.fieldBytes j = .ok x ∧ ∀ i, i ≠ j → w'.fieldBytes i = w.fieldBytes i := by
  obtain ⟨rfl, hl, hle, hlt, h0⟩ := structWalker_ok h
  have hjn : j < n := by
    by_cases e : j < n
    · exact e
    · rw [IndexedStructWalker.fieldBytes] at hj
      simp only [ge_iff_le] at hj
      rw [if_pos (by omega)] at hj; cases hj
  rw [fieldBytes_off hl hjn, sliceR_eq_ok] at hj
  obtain ⟨h1, h2, hf⟩ := hj
  have hmono : ∀ i < n, structOff p n i ≤ structOff p n (i + 1) := by
    intro i hi
    unfold structOff
    rw [if_pos hi]
    split
    · exact Nat.le_of_lt (hlt i (by assumption))
    · have := hle i hi; have := Nat.mod_le p.length (2 ^ 32); omega
  have hend : structOff p n n = p.length := by unfold structOff; simp
  have hb : ∀ i ≤ n, structOff p n i ≤ p.length := by
    intro i hi; rw [← hend]; exact steps_le hmono hi (Nat.le_refl _)
  have hfirst : n * 4 ≤ structOff p n j := by
    have h3 := steps_le hmono (Nat.zero_le j) (by omega)
    have h4 := h0 (by omega)
    have : structOff p n 0 = u32At p 0 := by unfold structOff; rw [if_pos (by omega)]
    omega
  have hfl : f.length = structOff p n (j + 1) - structOff p n j := by
    rw [hf, slice_length h1 h2]
  have hp : p = p.take (structOff p n j) ++ f ++ p.drop (structOff p n (j + 1)) := by
    rw [hf]; exact slice_split h1 h2
  have hal : (p.take (structOff p n j)).length = structOff p n j := by
    rw [List.length_take]; omega
  generalize hs : structOff p n j = s at *
  generalize he : structOff p n (j + 1) = e at *
  generalize ha : p.take s = a at *
  generalize hc : p.drop e = c at *
  refine ⟨a, c, hp, fun x hx => ?_⟩
  have hlen : (a ++ x ++ c).length = p.length := by
    rw [mid_length hx, ← hp]
  have hu : ∀ i < n, u32At (a ++ x ++ c) (i * 4) = u32At p (i * 4) := by
    intro i hi
    rw [u32At_clear hx (by omega), ← hp]
  have hoff : ∀ i, structOff (a ++ x ++ c) n i = structOff p n i := by
    intro i
    unfold structOff
    split
    · exact hu i (by assumption)
    · exact hlen
  have ok : IndexedStructWalker.fromPayload (a ++ x ++ c) rev n = .ok ⟨a ++ x ++ c, n, rev⟩ := by
    rw [structWalker_iff.1, hlen]
    refine ⟨hl, fun i hi => ?_, fun i hi => ?_, fun hn => ?_⟩
    · rw [hu i hi]; exact hle i hi
    · rw [hu i (by omega), hu (i + 1) hi]; exact hlt i hi
    · have := hu 0 hn
      rw [Nat.zero_mul] at this
      rw [this]; exact h0 hn
  refine ⟨_, ok, ?_, fun i hi => ?_⟩
  · rw [fieldBytes_off (by omega) hjn, hoff, hoff, hs, he, sliceR_eq_ok]
    refine ⟨h1, by omega, ?_⟩
    have := slice_here (a := a) (x := x) (c := c)
    rw [hal, hx, hfl] at this
    have e2 : s + (e - s) = e := by omega
    rw [e2] at this
    exact this.symm
  · by_cases hin : i < n
    · rw [fieldBytes_off (by omega) hin, fieldBytes_off hl hin, hoff, hoff,
        sliceR_ok (hmono i hin) (by rw [hlen]; exact hb _ (by omega)),
        sliceR_ok (hmono i hin) (hb _ (by omega)), slice_clear hx, ← hp]
      by_cases hij : i < j
      · left; rw [hal, ← hs]; exact steps_le hmono (by omega) (by omega)
      · right
        have : e ≤ structOff p n i := by rw [← he]; exact steps_le hmono (by omega) (by omega)
        omega
    · rw [IndexedStructWalker.fieldBytes, IndexedStructWalker.fieldBytes]
      simp only [ge_iff_le]
      rw [if_pos (by omega), if_pos (by omega)]

/-- C121: so every other field still decodes to what it did, also when the damaged one no longer
decodes at all. -/
theorem C121_struct_decode (p : Bytes) (rev n : Nat) (w : IndexedStructWalker)
    (h : IndexedStructWalker.fromPayload p rev n = .ok w) (j : Nat) (f : Bytes)
    (hj : w.fieldBytes j = .ok f) :
    ∃ a c, p = a ++ f ++ c ∧ ∀ x : Bytes, x.length = f.length →
      ∃ w', IndexedStructWalker.fromPayload (a ++ x ++ c) rev n = .ok w' ∧
        ∀ (α : Type) (c : Codec α) (i : Nat), i ≠ j → w'.decodeField c i = w.decodeField c i := by
  obtain ⟨a, c, hp, hx⟩ := C121_struct p rev n w h j f hj
  refine ⟨a, c, hp, fun x hl => ?_⟩
  obtain ⟨w', hw, -, ho⟩ := hx x hl
  refine ⟨w', hw, fun α c i hi => ?_⟩
  unfold IndexedStructWalker.decodeField
  rw [ho i hi]

/-- The struct with the fields `[7]` and `[1, 2]`, whose first field is damaged. -/
example : ∃ w, IndexedStructWalker.fromPayload [8, 0, 0, 0, 9, 0, 0, 0, 7, 1, 2] 1 2 = .ok w ∧
    w.fieldBytes 0 = .ok [7] ∧ w.fieldBytes 1 = .ok [1, 2] :=
  ⟨_, rfl, rfl, rfl⟩

example : ∃ w, IndexedStructWalker.fromPayload [8, 0, 0, 0, 9, 0, 0, 0, 255, 1, 2] 1 2 = .ok w ∧
    w.fieldBytes 0 = .ok [255] ∧ w.fieldBytes 1 = .ok [1, 2] :=
  ⟨_, rfl, rfl, rfl⟩

/-! ### Sequences -/

/-- C121: overwriting one element of an accepted indexed sequence leaves the sequence acceptable, of
the same length, and every other element as it was. -/
theorem C121_seq (p : Bytes) (w : IndexedSeqWalker)
    (h : IndexedSeqWalker.fromPayload p = .ok w) (j : Nat) (f : Bytes)
    (hj : w.elementBytes j = .ok f) :
    ∃ a c, p = a ++ f ++ c ∧ ∀ x : Bytes, x.length = f.length →
      ∃ w', IndexedSeqWalker.fromPayload (a ++ x ++ c) = .ok w' ∧ w'.len = w.len ∧
        w'.elementBytes j = .ok x ∧ ∀ i, i ≠ j → w'.elementBytes i = w.elementBytes i := by
  have hjn : j < w.len := by
    by_cases e : j < w.len
    · exact e
    · rw [elementBytes_out (by omega)] at hj; cases hj
  have o := seqOutcome p true
  rw [show IndexedSeqWalker.fromPayloadInner p true = .ok w from h] at o
  cases o with
  | legacy _ hn _ =>
    unfold IndexedSeqWalker.elementBytes at hj
    rw [hn] at hj; cases hj
  | indexed _ o ho hT _ hv =>
    obtain ⟨hle, hlt⟩ := hv rfl
    obtain ⟨te, hte, hbody, hre⟩ := seq_head h ho
    rw [elementBytes_eq ho hT hjn, sliceR_eq_ok] at hj
    obtain ⟨h1, h2, hf⟩ := hj
    generalize hoff : seqOff o w.body w.len = off at *
    have hmono : ∀ i < w.len, off i ≤ off (i + 1) := by
      intro i hi
      rw [← hoff]
      unfold seqOff
      rw [if_pos hi]
      split
      · exact Nat.le_of_lt (hlt i (by assumption))
      · have := hle i hi; have := Nat.mod_le w.body.length (2 ^ 32); omega
    have hend : off w.len = w.body.length := by rw [← hoff]; unfold seqOff; simp
    have hb : ∀ i ≤ w.len, off i ≤ w.body.length := by
      intro i hi; rw [← hend]; exact steps_le hmono hi (Nat.le_refl _)
    have hbl : w.body.length = p.length - te := by rw [hbody, List.length_drop]
    have inBody : ∀ (q : Bytes), q.length = p.length → ∀ s e, e ≤ p.length - te →
        slice (q.drop te) s e = slice q (te + s) (te + e) := by
      intro q hq s e he
      rw [← slice_to_end, slice_slice (by omega)]
    have hf' : f = slice p (te + off j) (te + off (j + 1)) := by
      rw [hf, hbody, inBody p rfl _ _ (by omega)]
    have hfl : f.length = off (j + 1) - off j := by rw [hf, slice_length h1 h2]
    have hp : p = p.take (te + off j) ++ f ++ p.drop (te + off (j + 1)) := by
      rw [hf']; exact slice_split (by omega) (by omega)
    have hal : (p.take (te + off j)).length = te + off j := by
      rw [List.length_take]; omega
    generalize ha : p.take (te + off j) = a at *
    generalize hc : p.drop (te + off (j + 1)) = c at *
    refine ⟨a, c, hp, fun x hx => ?_⟩
    have hlen : (a ++ x ++ c).length = p.length := by rw [mid_length hx, ← hp]
    have htake : (a ++ x ++ c).take te = p.take te := by
      conv => rhs; rw [hp]
      rw [List.append_assoc, List.append_assoc, List.take_append_of_le_length (by omega),
        List.take_append_of_le_length (by omega)]
    have ok := hre _ hlen htake
    have hbl' : ((a ++ x ++ c).drop te).length = w.body.length := by
      rw [List.length_drop, hlen, hbl]
    have hoff' : seqOff o ((a ++ x ++ c).drop te) w.len = off := by
      rw [← hoff]; funext i; unfold seqOff; rw [hbl']
    refine ⟨_, ok, rfl, ?_, fun i hi => ?_⟩
    · rw [elementBytes_eq (w := ⟨(a ++ x ++ c).drop te, some o, w.len⟩) (offsets := o) rfl hT hjn]
      simp only
      rw [hoff', sliceR_eq_ok]
      refine ⟨h1, by omega, ?_⟩
      rw [inBody _ hlen _ _ (by omega)]
      have := slice_here (a := a) (x := x) (c := c)
      rw [hal, hx, hfl] at this
      have e2 : te + off j + (off (j + 1) - off j) = te + off (j + 1) := by omega
      rw [e2] at this
      exact this.symm
    · by_cases hin : i < w.len
      · rw [elementBytes_eq (w := ⟨(a ++ x ++ c).drop te, some o, w.len⟩) (offsets := o) rfl hT hin,
          elementBytes_eq ho hT hin]
        simp only
        have b1 := hb (i + 1) (by omega)
        rw [hoff', hoff, sliceR_ok (hmono i hin) (by omega), sliceR_ok (hmono i hin) b1,
          inBody _ hlen _ _ (by omega), hbody, inBody p rfl _ _ (by omega), slice_clear hx, ← hp]
        by_cases hij : i < j
        · left; rw [hal]
          have := steps_le hmono (i := i + 1) (j := j) (by omega) (by omega)
          omega
        · right
          have := steps_le hmono (i := j + 1) (j := i) (by omega) (by omega)
          omega
      · rw [elementBytes_out (by show w.len ≤ i; omega), elementBytes_out (by omega)]

/-- The sequence of the elements `[7]` and `[1, 2]`, and one with its second element damaged. -/
example : ∃ w, IndexedSeqWalker.fromPayload [1, 2, 0, 0, 0, 0, 1, 0, 0, 0, 7, 1, 2] = .ok w ∧
    w.elementBytes 0 = .ok [7] ∧ w.elementBytes 1 = .ok [1, 2] :=
  ⟨_, rfl, rfl, rfl⟩

example : ∃ w, IndexedSeqWalker.fromPayload [1, 2, 0, 0, 0, 0, 1, 0, 0, 0, 7, 9, 9] = .ok w ∧
    w.elementBytes 0 = .ok [7] ∧ w.elementBytes 1 = .ok [9, 9] :=
  ⟨_, rfl, rfl, rfl⟩

/-! ### Maps -/

/-- What a payload with the head of an accepted map is read as. -/
theorem map_swap {p : Bytes} (hlen : p.length < 2 ^ 63) {w : IndexedMapWalker} {pr : MapPrologue}
    (h : IndexedMapWalker.fromPayload p = .ok w) (hpr : w.prologue = some pr)
    (hv : pr.Valid w.len) :
    ∃ L, L + pr.keys.length + pr.vals.length ≤ p.length ∧
      pr.es w.len = (List.range w.len).map (fun i =>
        (slice p (L + pr.K w.len i) (L + pr.K w.len (i + 1)),
          slice p (L + pr.keys.length + pr.V w.len i) (L + pr.keys.length + pr.V w.len (i + 1)))) ∧
      ∀ q : Bytes, q.length = p.length → q.take L = p.take L →
        ((∀ i, i + 1 < w.len → cmpBytes (slice q (L + pr.K w.len i) (L + pr.K w.len (i + 1)))
            (slice q (L + pr.K w.len (i + 1)) (L + pr.K w.len (i + 1 + 1))) = .lt) →
          ∃ w', IndexedMapWalker.fromPayload q = .ok w' ∧
            w'.entries = some (.ok ((List.range w.len).map fun i =>
              (slice q (L + pr.K w.len i) (L + pr.K w.len (i + 1)),
                slice q (L + pr.keys.length + pr.V w.len i)
                  (L + pr.keys.length + pr.V w.len (i + 1)))))) ∧
        ((¬ ∀ i, i + 1 < w.len → cmpBytes (slice q (L + pr.K w.len i) (L + pr.K w.len (i + 1)))
            (slice q (L + pr.K w.len (i + 1)) (L + pr.K w.len (i + 1 + 1))) = .lt) →
          IndexedMapWalker.fromPayload q = .err .keysNotAscending) := by
  obtain ⟨L, hL, hk, hvs, hre⟩ := map_head hlen h hpr
  have kb := hv.kBound
  have vb := hv.vBound
  have key : ∀ (q : Bytes) (i : Nat), slice (slice q L (L + pr.keys.length)) (pr.K w.len i)
      (pr.K w.len (i + 1)) = slice q (L + pr.K w.len i) (L + pr.K w.len (i + 1)) := by
    intro q i; have := kb (i + 1); rw [slice_slice (by omega)]
  have val : ∀ (q : Bytes) (i : Nat), slice (slice q (L + pr.keys.length)
      (L + pr.keys.length + pr.vals.length)) (pr.V w.len i) (pr.V w.len (i + 1)) =
      slice q (L + pr.keys.length + pr.V w.len i) (L + pr.keys.length + pr.V w.len (i + 1)) := by
    intro q i; have := vb (i + 1); rw [slice_slice (by omega)]
  refine ⟨L, hL, ?_, fun q hq hqt => ?_⟩
  · unfold MapPrologue.es
    apply List.map_congr_left
    intro i _
    rw [← key p i, ← val p i, ← hk, ← hvs]; rfl
  · obtain ⟨b, e⟩ := hre q hq hqt
    have kl : (slice q L (L + pr.keys.length)).length = pr.keys.length := by
      rw [slice_length (by omega) (by omega)]; omega
    have vl : (slice q (L + pr.keys.length) (L + pr.keys.length + pr.vals.length)).length =
        pr.vals.length := by
      rw [slice_length (by omega) (by omega)]; omega
    generalize hpr' : (⟨pr.table, slice q L (L + pr.keys.length),
      slice q (L + pr.keys.length) (L + pr.keys.length + pr.vals.length)⟩ : MapPrologue) = pr' at e
    have t' : pr'.table = pr.table := by rw [← hpr']
    have k' : pr'.keys = slice q L (L + pr.keys.length) := by rw [← hpr']
    have v' : pr'.vals = slice q (L + pr.keys.length) (L + pr.keys.length + pr.vals.length) := by
      rw [← hpr']
    have K' : pr'.K w.len = pr.K w.len := by
      funext i; unfold MapPrologue.K; rw [t', k', kl]
    have V' : pr'.V w.len = pr.V w.len := by
      funext i; unfold MapPrologue.V; rw [t', v', vl]
    have key' : ∀ i, pr'.key w.len i = slice q (L + pr.K w.len i) (L + pr.K w.len (i + 1)) := by
      intro i; unfold MapPrologue.key; rw [K', k', key]
    have val' : ∀ i, pr'.val w.len i =
        slice q (L + pr.keys.length + pr.V w.len i) (L + pr.keys.length + pr.V w.len (i + 1)) := by
      intro i; unfold MapPrologue.val; rw [V', v', val]
    rw [← k', ← t'] at e
    obtain ⟨a1, a2⟩ := validateKeyRegionAscending_iff (p := pr') (n := w.len)
      (by rw [t']; exact hv.table) (by rw [K']; exact hv.kMono)
      (by rw [K', k', kl]; exact kb)
    simp only [key'] at a1
    constructor
    · intro hasc
      rw [a1.2 hasc, Res.ok_bind] at e
      refine ⟨_, e, ?_⟩
      have hv' : pr'.Valid w.len := by
        constructor
        · rw [t']; exact hv.table
        · exact hv.pos
        · rw [K', k', kl]; exact hv.kLe
        · rw [K']; exact hv.kLt
        · rw [V', v', vl]; exact hv.vLe
        · rw [V']; exact hv.vLt
        · simp only [key']; exact hasc
      rw [entries_valid (w := ⟨b, some pr', w.len⟩) rfl hv']
      unfold MapPrologue.es
      simp only [key', val']
    · intro hna
      cases hx : validateKeyRegionAscending pr'.keys pr'.table w.len with
      | ok u => exact absurd (a1.1 hx) hna
      | panic => exact absurd hx a2
      | err er =>
        have := validateKeyRegionAscending_err hx
        subst this
        rw [hx] at e; exact e

theorem map_range_set {α : Type} {n j : Nat} {f g : Nat → α} (hj : j < n)
    (h : ∀ i < n, i ≠ j → g i = f i) :
    (List.range n).map g = ((List.range n).map f).set j (g j) := by
  apply List.ext_getElem
  · simp
  · intro i h1 h2
    simp only [List.length_map, List.length_range] at h1
    rw [List.getElem_set]
    simp only [List.getElem_map, List.getElem_range]
    split
    · subst_vars; rfl
    · exact h i h1 (by omega)

theorem indexed_of_entries {w : IndexedMapWalker} {es : List (Bytes × Bytes)}
    (he : w.entries = some (.ok es)) : w.isIndexed = true := by
  unfold IndexedMapWalker.entries at he
  unfold IndexedMapWalker.isIndexed
  cases hp : w.prologue with
  | none => rw [hp] at he; cases he
  | some _ => rfl

theorem mem_set_ne {α : Type} {es : List α} {j : Nat} {x y : α} (hj : j < es.length) (h1 : y ≠ x)
    (h2 : y ≠ es[j]) : y ∈ es.set j x ↔ y ∈ es := by
  constructor
  · intro h
    cases List.mem_or_eq_of_mem_set h with
    | inl h => exact h
    | inr h => exact absurd h h1
  · intro h
    obtain ⟨i, hi, rfl⟩ := List.mem_iff_getElem.1 h
    rw [List.mem_iff_getElem]
    refine ⟨i, by simpa using hi, ?_⟩
    rw [List.getElem_set, if_neg]
    intro e; subst e; exact h2 rfl

/-- A lookup is settled by which entries it can find. -/
theorem find_congr {p q : Bytes} (hp : p.length < 2 ^ 63) (hq : q.length < 2 ^ 63)
    {w w' : IndexedMapWalker} (h : IndexedMapWalker.fromPayload p = .ok w)
    (h' : IndexedMapWalker.fromPayload q = .ok w') {es es' : List (Bytes × Bytes)}
    (he : w.entries = some (.ok es)) (he' : w'.entries = some (.ok es')) {key : Bytes}
    (ha : Ascending (es.map Prod.fst)) (ha' : Ascending (es'.map Prod.fst))
    (hm : ∀ v, (key, v) ∈ es' ↔ (key, v) ∈ es) :
    w'.findValueBytes (fun k => cmpBytes k key) = w.findValueBytes (fun k => cmpBytes k key) := by
  obtain ⟨a1, a2⟩ := C35_accepted_key p hp w h es he ha key
  obtain ⟨b1, b2⟩ := C35_accepted_key q hq w' h' es' he' ha' key
  by_cases hk : key ∈ es.map Prod.fst
  · obtain ⟨⟨k, v⟩, hm1, rfl⟩ := List.mem_map.1 hk
    rw [(a1 v).2 hm1, (b1 v).2 ((hm v).2 hm1)]
  · rw [a2.2 hk, b2.2]
    intro hk'
    obtain ⟨⟨k, v⟩, hm1, rfl⟩ := List.mem_map.1 hk'
    exact hk (List.mem_map.2 ⟨_, (hm v).1 hm1, rfl⟩)

/-- C121: overwriting one value of an accepted indexed map leaves the map acceptable; its entries
are the ones before with that value replaced, and a lookup of any other key answers as before. -/
theorem C121_map_value (p : Bytes) (hlen : p.length < 2 ^ 63) (w : IndexedMapWalker)
    (h : IndexedMapWalker.fromPayload p = .ok w) (es : List (Bytes × Bytes))
    (he : w.entries = some (.ok es)) (j : Nat) (hj : j < es.length) :
    ∃ a c, p = a ++ es[j].2 ++ c ∧ ∀ x : Bytes, x.length = es[j].2.length →
      ∃ w', IndexedMapWalker.fromPayload (a ++ x ++ c) = .ok w' ∧
        w'.entries = some (.ok (es.set j (es[j].1, x))) ∧
        w'.findValueBytes (fun k => cmpBytes k es[j].1) = .ok (some x) ∧
        ∀ key, key ≠ es[j].1 → w'.findValueBytes (fun k => cmpBytes k key) =
          w.findValueBytes (fun k => cmpBytes k key) := by
  have hi := indexed_of_entries he
  obtain ⟨pr, hs, hv⟩ := mapAccepted hlen h hi
  obtain ⟨es0, he0, hl0, -, hasc, -⟩ := C35_accepted_layout p hlen w h hi
  rw [he] at he0
  injection he0 with he0; injection he0 with he0
  subst he0
  obtain ⟨L, hL, hes, hre⟩ := map_swap hlen h hs.pro hv
  rw [entries_valid hs.pro hv] at he
  have he1 := he
  injection he1 with he1; injection he1 with he1
  rw [hes] at he1
  have hjn : j < w.len := by omega
  have vm := hv.vMono
  have vb := hv.vBound
  have kb := hv.kBound
  generalize hL2 : L + pr.keys.length = L2 at *
  have hej : es[j] = (slice p (L + pr.K w.len j) (L + pr.K w.len (j + 1)),
      slice p (L2 + pr.V w.len j) (L2 + pr.V w.len (j + 1))) := by
    simp only [← he1, List.getElem_map, List.getElem_range]
  have b1 := vm j hjn
  have b2 := vb (j + 1)
  have hfl : es[j].2.length = pr.V w.len (j + 1) - pr.V w.len j := by
    rw [hej]; simp only; rw [slice_length (by omega) (by omega)]; omega
  have hp : p = p.take (L2 + pr.V w.len j) ++ es[j].2 ++ p.drop (L2 + pr.V w.len (j + 1)) := by
    rw [hej]; exact slice_split (by omega) (by omega)
  have hal : (p.take (L2 + pr.V w.len j)).length = L2 + pr.V w.len j := by
    rw [List.length_take]; omega
  generalize ha : p.take (L2 + pr.V w.len j) = a at *
  generalize hc : p.drop (L2 + pr.V w.len (j + 1)) = c at *
  refine ⟨a, c, hp, fun x hx => ?_⟩
  have hq : (a ++ x ++ c).length = p.length := by rw [mid_length hx, ← hp]
  have htake : (a ++ x ++ c).take L = p.take L := by
    conv => rhs; rw [hp]
    rw [List.append_assoc, List.append_assoc, List.take_append_of_le_length (by omega),
      List.take_append_of_le_length (by omega)]
  have clear : ∀ s e, e ≤ L2 + pr.V w.len j ∨ L2 + pr.V w.len (j + 1) ≤ s →
      slice (a ++ x ++ c) s e = slice p s e := by
    intro s e hse
    rw [slice_clear hx (by omega), ← hp]
  have keyEq : ∀ i, slice (a ++ x ++ c) (L + pr.K w.len i) (L + pr.K w.len (i + 1)) =
      pr.key w.len i := by
    intro i
    rw [clear _ _ (by have := kb (i + 1); omega)]
    by_cases hin : i < w.len
    · have := congrArg (fun l => l[i]?) hes
      simp only [MapPrologue.es, List.getElem?_map, List.getElem?_range hin, Option.map_some,
        Option.some.injEq, Prod.mk.injEq] at this
      exact this.1.symm
    · unfold MapPrologue.key
      have e1 : pr.K w.len i = pr.keys.length := by unfold MapPrologue.K; rw [if_neg hin]
      have e2 : pr.K w.len (i + 1) = pr.keys.length := by
        unfold MapPrologue.K; rw [if_neg (by omega)]
      rw [e1, e2, slice_self, slice_self]
  obtain ⟨w', hw', hew'⟩ := (hre (a ++ x ++ c) hq htake).1 (by
    intro i hi'
    rw [keyEq, keyEq]; exact hv.asc i hi')
  have hset : ((List.range w.len).map fun i =>
      (slice (a ++ x ++ c) (L + pr.K w.len i) (L + pr.K w.len (i + 1)),
        slice (a ++ x ++ c) (L2 + pr.V w.len i) (L2 + pr.V w.len (i + 1)))) =
      es.set j (es[j].1, x) := by
    rw [map_range_set (j := j) (f := fun i => (slice p (L + pr.K w.len i) (L + pr.K w.len (i + 1)),
      slice p (L2 + pr.V w.len i) (L2 + pr.V w.len (i + 1)))) hjn, he1]
    · congr 1
      rw [hej]
      simp only [Prod.mk.injEq]
      refine ⟨clear _ _ (by have := kb (j + 1); omega), ?_⟩
      have := slice_here (a := a) (x := x) (c := c)
      rw [hal, hx, hfl] at this
      have e2 : L2 + pr.V w.len j + (pr.V w.len (j + 1) - pr.V w.len j) =
          L2 + pr.V w.len (j + 1) := by omega
      rw [e2] at this; exact this
    · intro i hin hij
      simp only [Prod.mk.injEq]
      refine ⟨clear _ _ (by have := kb (i + 1); omega), clear _ _ ?_⟩
      by_cases hlt : i < j
      · left
        have := steps_le vm (i := i + 1) (j := j) (by omega) (by omega)
        omega
      · right
        have := steps_le vm (i := j + 1) (j := i) (by omega) (by omega)
        omega
  rw [hset] at hew'
  have hfst : (es.set j (es[j].1, x)).map Prod.fst = es.map Prod.fst := by
    apply List.ext_getElem
    · simp
    · intro i h1 h2
      simp only [List.getElem_map, List.getElem_set]
      split
      · subst_vars; rfl
      · rfl
  have he : w.entries = some (.ok es) := by rw [entries_valid hs.pro hv, ← he1, ← hes]
  refine ⟨w', hw', hew', ?_, fun key hkey => ?_⟩
  · rw [(C35_accepted_key _ (by omega) w' hw' _ hew' (by rw [hfst]; exact hasc) _).1 x]
    rw [List.mem_iff_getElem]
    exact ⟨j, by simpa using hj, by simp⟩
  · refine find_congr hlen (by omega) h hw' he hew' hasc (by rw [hfst]; exact hasc) fun v => ?_
    exact mem_set_ne hj (fun e => hkey (congrArg Prod.fst e)) (fun e => hkey (congrArg Prod.fst e))

/-- C121: overwriting one key of an accepted indexed map: either the keys are still strictly
ascending, and then the map is accepted with that key replaced, and a lookup of any key other than
the old and the new one answers as before; or they are not, and then the map is refused. -/
theorem C121_map_key (p : Bytes) (hlen : p.length < 2 ^ 63) (w : IndexedMapWalker)
    (h : IndexedMapWalker.fromPayload p = .ok w) (es : List (Bytes × Bytes))
    (he : w.entries = some (.ok es)) (j : Nat) (hj : j < es.length) :
    ∃ a c, p = a ++ es[j].1 ++ c ∧ ∀ x : Bytes, x.length = es[j].1.length →
      (Ascending ((es.map Prod.fst).set j x) →
        ∃ w', IndexedMapWalker.fromPayload (a ++ x ++ c) = .ok w' ∧
          w'.entries = some (.ok (es.set j (x, es[j].2))) ∧
          w'.findValueBytes (fun k => cmpBytes k x) = .ok (some es[j].2) ∧
          ∀ key, key ≠ es[j].1 → key ≠ x → w'.findValueBytes (fun k => cmpBytes k key) =
            w.findValueBytes (fun k => cmpBytes k key)) ∧
      (¬ Ascending ((es.map Prod.fst).set j x) →
        IndexedMapWalker.fromPayload (a ++ x ++ c) = .err .keysNotAscending) := by
  have hi := indexed_of_entries he
  obtain ⟨pr, hs, hv⟩ := mapAccepted hlen h hi
  obtain ⟨es0, he0, hl0, -, hasc, -⟩ := C35_accepted_layout p hlen w h hi
  rw [he] at he0
  injection he0 with he0; injection he0 with he0
  subst he0
  obtain ⟨L, hL, hes, hre⟩ := map_swap hlen h hs.pro hv
  rw [entries_valid hs.pro hv] at he
  have he1 := he
  injection he1 with he1; injection he1 with he1
  rw [hes] at he1
  have hjn : j < w.len := by omega
  have km := hv.kMono
  have vb := hv.vBound
  have kb := hv.kBound
  have kend : pr.K w.len w.len = pr.keys.length := by unfold MapPrologue.K; simp
  generalize hL2 : L + pr.keys.length = L2 at *
  have hej : es[j] = (slice p (L + pr.K w.len j) (L + pr.K w.len (j + 1)),
      slice p (L2 + pr.V w.len j) (L2 + pr.V w.len (j + 1))) := by
    simp only [← he1, List.getElem_map, List.getElem_range]
  have b1 := km j hjn
  have b2 := kb (j + 1)
  have hfl : es[j].1.length = pr.K w.len (j + 1) - pr.K w.len j := by
    rw [hej]; simp only; rw [slice_length (by omega) (by omega)]; omega
  have hp : p = p.take (L + pr.K w.len j) ++ es[j].1 ++ p.drop (L + pr.K w.len (j + 1)) := by
    rw [hej]; exact slice_split (by omega) (by omega)
  have hal : (p.take (L + pr.K w.len j)).length = L + pr.K w.len j := by
    rw [List.length_take]; omega
  generalize ha : p.take (L + pr.K w.len j) = a at *
  generalize hc : p.drop (L + pr.K w.len (j + 1)) = c at *
  refine ⟨a, c, hp, fun x hx => ?_⟩
  have hq : (a ++ x ++ c).length = p.length := by rw [mid_length hx, ← hp]
  have htake : (a ++ x ++ c).take L = p.take L := by
    conv => rhs; rw [hp]
    rw [List.append_assoc, List.append_assoc, List.take_append_of_le_length (by omega),
      List.take_append_of_le_length (by omega)]
  have clear : ∀ s e, e ≤ L + pr.K w.len j ∨ L + pr.K w.len (j + 1) ≤ s →
      slice (a ++ x ++ c) s e = slice p s e := by
    intro s e hse
    rw [slice_clear hx (by omega), ← hp]
  have here : slice (a ++ x ++ c) (L + pr.K w.len j) (L + pr.K w.len (j + 1)) = x := by
    have := slice_here (a := a) (x := x) (c := c)
    rw [hal, hx, hfl] at this
    have e2 : L + pr.K w.len j + (pr.K w.len (j + 1) - pr.K w.len j) =
        L + pr.K w.len (j + 1) := by omega
    rw [e2] at this; exact this
  have other : ∀ i < w.len, i ≠ j → slice (a ++ x ++ c) (L + pr.K w.len i)
      (L + pr.K w.len (i + 1)) = slice p (L + pr.K w.len i) (L + pr.K w.len (i + 1)) := by
    intro i hin hij
    apply clear
    by_cases hlt : i < j
    · left
      have := steps_le km (i := i + 1) (j := j) (by omega) (by omega)
      omega
    · right
      have := steps_le km (i := j + 1) (j := i) (by omega) (by omega)
      omega
  have hset : ((List.range w.len).map fun i =>
      (slice (a ++ x ++ c) (L + pr.K w.len i) (L + pr.K w.len (i + 1)),
        slice (a ++ x ++ c) (L2 + pr.V w.len i) (L2 + pr.V w.len (i + 1)))) =
      es.set j (x, es[j].2) := by
    rw [map_range_set (j := j) (f := fun i => (slice p (L + pr.K w.len i) (L + pr.K w.len (i + 1)),
      slice p (L2 + pr.V w.len i) (L2 + pr.V w.len (i + 1)))) hjn, he1]
    · congr 1
      rw [hej]
      simp only [Prod.mk.injEq]
      exact ⟨here, clear _ _ (by omega)⟩
    · intro i hin hij
      simp only [Prod.mk.injEq]
      exact ⟨other i hin hij, clear _ _ (by omega)⟩
  have hfst : (es.set j (x, es[j].2)).map Prod.fst = (es.map Prod.fst).set j x := by
    rw [List.map_set]
  have hks : ((es.map Prod.fst).set j x) = (List.range w.len).map fun i =>
      slice (a ++ x ++ c) (L + pr.K w.len i) (L + pr.K w.len (i + 1)) := by
    rw [← hfst, ← hset, List.map_map]; rfl
  have hiff : Ascending ((es.map Prod.fst).set j x) ↔
      ∀ i, i + 1 < w.len → cmpBytes (slice (a ++ x ++ c) (L + pr.K w.len i) (L + pr.K w.len (i + 1)))
        (slice (a ++ x ++ c) (L + pr.K w.len (i + 1)) (L + pr.K w.len (i + 1 + 1))) = .lt := by
    rw [hks]
    unfold Ascending
    rw [List.pairwise_iff_getElem]
    constructor
    · intro hall i hi'
      have := hall i (i + 1) (by simp; omega) (by simp; omega) (by omega)
      simpa only [List.getElem_map, List.getElem_range] using this
    · intro hall i k h1 h2 hik
      simp only [List.length_map, List.length_range] at h1 h2
      simp only [List.getElem_map, List.getElem_range]
      induction k with
      | zero => omega
      | succ k ih =>
        by_cases e : i = k
        · subst e; exact hall i h2
        · exact cmpBytes_lt_trans (ih (by simp; omega) (by omega) (by omega)) (hall k h2)
  have he : w.entries = some (.ok es) := by rw [entries_valid hs.pro hv, ← he1, ← hes]
  obtain ⟨r1, r2⟩ := hre (a ++ x ++ c) hq htake
  rw [← hiff] at r1 r2
  rw [hset] at r1
  refine ⟨fun hasc' => ?_, r2⟩
  obtain ⟨w', hw', hew'⟩ := r1 hasc'
  refine ⟨w', hw', hew', ?_, fun key hkey hkx => ?_⟩
  · rw [(C35_accepted_key _ (by omega) w' hw' _ hew' (by rw [hfst]; exact hasc') _).1]
    rw [List.mem_iff_getElem]
    exact ⟨j, by simpa using hj, by simp⟩
  · refine find_congr hlen (by omega) h hw' he hew' hasc (by rw [hfst]; exact hasc') fun v => ?_
    exact mem_set_ne hj (fun e => hkx (congrArg Prod.fst e)) (fun e => hkey (congrArg Prod.fst e))

/-- In an accepted map a lookup by key with a hint finds what the one without finds. -/
theorem hinted_plain {p : Bytes} (hlen : p.length < 2 ^ 63) {w : IndexedMapWalker}
    (h : IndexedMapWalker.fromPayload p = .ok w) {es : List (Bytes × Bytes)}
    (he : w.entries = some (.ok es)) (key : Bytes) (hint : Option Nat) :
    ∃ v hint', w.findValueBytes (fun k => cmpBytes k key) = .ok v ∧
      w.findWithHint hint (fun k => cmpBytes k key) = .ok ⟨v, hint'⟩ := by
  obtain ⟨es0, he0, -, -, hasc, -⟩ := C35_accepted_layout p hlen w h (indexed_of_entries he)
  rw [he] at he0
  injection he0 with he0; injection he0 with he0
  subst he0
  obtain ⟨v, hint', h1, h2, -⟩ := C36_hint p hlen w h es he _ (hasc.guides cmp_lt_ne_gt key) hint
  exact ⟨v, hint', h1, h2⟩

/-- C121: a damaged value shows in no lookup of another key with a hint either, whatever the hint,
be it one taken before the damage. -/
theorem C121_map_value_hint (p : Bytes) (hlen : p.length < 2 ^ 63) (w : IndexedMapWalker)
    (h : IndexedMapWalker.fromPayload p = .ok w) (es : List (Bytes × Bytes))
    (he : w.entries = some (.ok es)) (j : Nat) (hj : j < es.length) :
    ∃ a c, p = a ++ es[j].2 ++ c ∧ ∀ x : Bytes, x.length = es[j].2.length →
      ∃ w', IndexedMapWalker.fromPayload (a ++ x ++ c) = .ok w' ∧ ∀ hint,
        (∃ hint', w'.findWithHint hint (fun k => cmpBytes k es[j].1) = .ok ⟨some x, hint'⟩) ∧
        ∀ key, key ≠ es[j].1 → ∃ v hint', w.findValueBytes (fun k => cmpBytes k key) = .ok v ∧
          w'.findWithHint hint (fun k => cmpBytes k key) = .ok ⟨v, hint'⟩ := by
  obtain ⟨a, c, hp, hx⟩ := C121_map_value p hlen w h es he j hj
  refine ⟨a, c, hp, fun x hl => ?_⟩
  obtain ⟨w', hw, hew, hf, ho⟩ := hx x hl
  have hlen' : (a ++ x ++ c).length < 2 ^ 63 := by
    rw [hp] at hlen
    simp only [List.length_append, hl] at hlen ⊢
    exact hlen
  refine ⟨w', hw, fun hint => ⟨?_, fun key hk => ?_⟩⟩
  · obtain ⟨v, hint', h1, h2⟩ := hinted_plain hlen' hw hew es[j].1 hint
    cases hf.symm.trans h1
    exact ⟨hint', h2⟩
  · obtain ⟨v, hint', h1, h2⟩ := hinted_plain hlen' hw hew key hint
    exact ⟨v, hint', (ho key hk).symm.trans h1, h2⟩

/-- C121: nor does a damaged key, if the map is still accepted, in a lookup with a hint of any key
other than the old and the new one. -/
theorem C121_map_key_hint (p : Bytes) (hlen : p.length < 2 ^ 63) (w : IndexedMapWalker)
    (h : IndexedMapWalker.fromPayload p = .ok w) (es : List (Bytes × Bytes))
    (he : w.entries = some (.ok es)) (j : Nat) (hj : j < es.length) :
    ∃ a c, p = a ++ es[j].1 ++ c ∧ ∀ x : Bytes, x.length = es[j].1.length →
      ∀ w', IndexedMapWalker.fromPayload (a ++ x ++ c) = .ok w' → ∀ hint,
        (∃ hint', w'.findWithHint hint (fun k => cmpBytes k x) = .ok ⟨some es[j].2, hint'⟩) ∧
        ∀ key, key ≠ es[j].1 → key ≠ x → ∃ v hint', w.findValueBytes (fun k => cmpBytes k key) = .ok v ∧
          w'.findWithHint hint (fun k => cmpBytes k key) = .ok ⟨v, hint'⟩ := by
  obtain ⟨a, c, hp, hx⟩ := C121_map_key p hlen w h es he j hj
  refine ⟨a, c, hp, fun x hl w' hw' hint => ?_⟩
  obtain ⟨hy, hn⟩ := hx x hl
  have hlen' : (a ++ x ++ c).length < 2 ^ 63 := by
    rw [hp] at hlen
    simp only [List.length_append, hl] at hlen ⊢
    exact hlen
  by_cases hasc : Ascending ((es.map Prod.fst).set j x)
  · obtain ⟨w1, hw, hew, hf, ho⟩ := hy hasc
    cases hw.symm.trans hw'
    refine ⟨?_, fun key hk hk' => ?_⟩
    · obtain ⟨v, hint', h1, h2⟩ := hinted_plain hlen' hw hew x hint
      cases hf.symm.trans h1
      exact ⟨hint', h2⟩
    · obtain ⟨v, hint', h1, h2⟩ := hinted_plain hlen' hw hew key hint
      exact ⟨v, hint', (ho key hk hk').symm.trans h1, h2⟩
  · cases (hn hasc).symm.trans hw'

/-- The map of two entries, one with the second value damaged, one with the first key damaged so
that the keys no longer ascend. -/
example : ∃ w, IndexedMapWalker.fromPayload demoMapPayload = .ok w ∧
    w.entries = some (.ok [([1], [9]), ([2, 5], [8, 8])]) := ⟨_, rfl, rfl⟩

example : IndexedMapWalker.fromPayload (demoMapPayload.set 26 7) = .err .keysNotAscending ∧
    ∃ w, IndexedMapWalker.fromPayload (demoMapPayload.set 30 0) = .ok w ∧
      w.entries = some (.ok [([1], [9]), ([2, 5], [0, 8])]) := ⟨rfl, _, rfl, rfl⟩

/-- The damaged map, asked with the hint of the other entry and with one beyond the end. -/
example : ∃ w, IndexedMapWalker.fromPayload (demoMapPayload.set 30 0) = .ok w ∧
    w.findWithHint (some 1) (fun k => cmpBytes k [1]) = .ok ⟨some [9], some 0⟩ ∧
    w.findWithHint (some 7) (fun k => cmpBytes k [2, 5]) = .ok ⟨some [0, 8], some 1⟩ :=
  ⟨_, rfl, by decide +kernel, by decide +kernel⟩

end Revision
