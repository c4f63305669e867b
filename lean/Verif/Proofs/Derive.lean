import Verif.Spec.Derive
import Verif.Proofs.Prim
import Verif.Proofs.Rd
import Verif.Proofs.Schema
import Verif.Proofs.Ints

/-! Helper lemmas about derived structs. -/

namespace Revision

variable {V : Type}

theorem readVarlenLen_append (n : Nat) (h : n < 2 ^ 32) (t : Bytes) :
    readVarlenLen (leBytes 4 n ++ t) = .ok (n, t) := by
  unfold readVarlenLen
  rw [Rd.bind_of_ok (Rd.readExact_append _ _ 4 (leBytes_length _ _)), leVal_leBytes,
    Nat.mod_eq_of_lt (by omega)]
  rfl

theorem readLengthPrefixed_append (p : Bytes) (h : p.length < 2 ^ 32) (t : Bytes) :
    readLengthPrefixed (leBytes 4 p.length ++ p ++ t) = .ok (p, t) := by
  unfold readLengthPrefixed
  rw [List.append_assoc, Rd.bind_of_ok (readVarlenLen_append _ h _), Rd.readExact_append _ _ _ rfl]

/-! ### Histories -/

theorem ValidHistory.latest_eq {h : List Entry} (hv : ValidHistory h) : latest h = h.length := by
  unfold latest
  rw [← List.getLast?_map, hv.ascending, List.getLast?_range']
  have := List.length_pos_iff.2 hv.nonempty
  rw [if_neg (by omega)]
  simp
  try omega

theorem ValidHistory.revision_get {h : List Entry} (hv : ValidHistory h) {i : Nat} {e : Entry}
    (he : h[i]? = some e) : e.revision = i + 1 := by
  have h1 : (h.map Entry.revision)[i]? = some e.revision := by simp [he]
  have hi : i < h.length := by
    rw [List.getElem?_eq_some_iff] at he
    exact he.1
  rw [hv.ascending, List.getElem?_range' hi] at h1
  simp at h1
  omega

theorem ValidHistory.find {h : List Entry} (hv : ValidHistory h) {e : Entry} (he : e ∈ h) :
    h.find? (fun x => x.revision == e.revision) = some e := by
  obtain ⟨i, hi, hie⟩ := List.getElem_of_mem he
  have hie' : h[i]? = some e := by rw [List.getElem?_eq_some_iff]; exact ⟨hi, hie⟩
  cases hf : h.find? (fun x => x.revision == e.revision) with
  | none =>
    rw [List.find?_eq_none] at hf
    exact absurd (by simp) (hf e he)
  | some x =>
    have hx := List.find?_some hf
    obtain ⟨j, hj, hjx⟩ := List.getElem_of_mem (List.mem_of_find?_eq_some hf)
    have hjx' : h[j]? = some x := by rw [List.getElem?_eq_some_iff]; exact ⟨hj, hjx⟩
    have h1 := hv.revision_get hie'
    have h2 := hv.revision_get hjx'
    have : i = j := by simp at hx; omega
    subst this
    rw [hie'] at hjx'
    exact hjx'.symm

theorem ValidHistory.find_none {h : List Entry} (hv : ValidHistory h) {r : Nat}
    (hr : r = 0 ∨ h.length < r) : h.find? (fun x => x.revision == r) = none := by
  rw [List.find?_eq_none]
  intro x hx
  obtain ⟨j, hj, hjx⟩ := List.getElem_of_mem hx
  have h2 := hv.revision_get (i := j) (e := x) (by rw [List.getElem?_eq_some_iff]; exact ⟨hj, hjx⟩)
  simp; omega

theorem ValidHistory.take {h : List Entry} (hv : ValidHistory h) {k : Nat} (h1 : 1 ≤ k)
    (h2 : k ≤ h.length) : ValidHistory (h.take k) where
  nonempty := by
    intro hc
    have := congrArg List.length hc
    rw [List.length_take, Nat.min_eq_left h2] at this
    simp only [List.length_nil] at this
    omega
  ascending := by
    have hr : List.range' 1 h.length = List.range' 1 k ++ List.range' (1 + k) (h.length - k) := by
      rw [List.range'_append_1]; congr 1; omega
    rw [List.map_take, hv.ascending, hr, List.length_take, Nat.min_eq_left h2,
      List.take_left' (List.length_range' ..)]
  fits := by simp; have := hv.fits; omega

theorem ValidHistory.lastEntry_get {h : List Entry} (hv : ValidHistory h) :
    h[h.length - 1]? = some (lastEntry h) := by
  unfold lastEntry
  have hl := List.getLast?_eq_getElem? (l := h)
  cases hg : h.getLast? with
  | none => rw [List.getLast?_eq_none_iff] at hg; exact absurd hg hv.nonempty
  | some e => rw [← hl, hg]; rfl

theorem ValidHistory.lastEntry_mem {h : List Entry} (hv : ValidHistory h) : lastEntry h ∈ h :=
  List.mem_of_getElem? hv.lastEntry_get

theorem ValidHistory.lastEntry_revision {h : List Entry} (hv : ValidHistory h) :
    (lastEntry h).revision = h.length := by
  have := hv.revision_get hv.lastEntry_get
  have := List.length_pos_iff.2 hv.nonempty
  omega

theorem ValidHistory.lastEntry_take {h : List Entry} (hv : ValidHistory h) {k : Nat} (h1 : 1 ≤ k)
    (h2 : k ≤ h.length) : h[k - 1]? = some (lastEntry (h.take k)) := by
  have := (hv.take h1 h2).lastEntry_get
  rw [List.length_take, Nat.min_eq_left h2, List.getElem?_take_of_lt (by omega)] at this
  exact this

theorem ValidHistory.revision_le {h : List Entry} (hv : ValidHistory h) {e : Entry} (he : e ∈ h) :
    1 ≤ e.revision ∧ e.revision ≤ h.length := by
  obtain ⟨i, hi, hie⟩ := List.getElem_of_mem he
  have := hv.revision_get (i := i) (e := e) (by rw [List.getElem?_eq_some_iff]; exact ⟨hi, hie⟩)
  omega

theorem dispatch_hit (cfg : Cfg) {h : List Entry} (hv : ValidHistory h) {e : Entry} (he : e ∈ h)
    (arm : Entry → Rd α) (t : Bytes) :
    dispatchRevision cfg h arm (encU16 cfg e.revision ++ t) = arm e t := by
  have h1 := hv.revision_le he
  have h2 := hv.fits
  unfold dispatchRevision
  rw [Rd.bind_of_ok (readU16_encU16 cfg (by omega) t)]
  simp only [hv.find he]

theorem dispatch_miss (cfg : Cfg) {h : List Entry} (hv : ValidHistory h) {r : Nat} (hr : r < 2 ^ 16)
    (ho : r = 0 ∨ h.length < r) (arm : Entry → Rd α) (t : Bytes) :
    dispatchRevision cfg h arm (encU16 cfg r ++ t) = .err .deserialize := by
  unfold dispatchRevision
  rw [Rd.bind_of_ok (readU16_encU16 cfg hr t)]
  simp only [hv.find_none ho]
  rfl

/-! ### Serialising -/

theorem serializeFields_encodes {c : FieldDecl V → Codec V} {r : Nat} :
    ∀ (fs : List (FieldDecl V)) (vs : List V) (bs : List Bytes),
    Encodes c (aliveFields fs r) vs bs → serializeFields (fun f v => (c f).enc v) r fs vs = .ok bs.flatten
  | [], vs, bs, h => by
    cases h; rfl
  | f :: fs, vs, bs, h => by
    unfold aliveFields at h
    unfold serializeFields
    by_cases ha : f.existsAt r
    · rw [List.filter_cons_of_pos (by simpa using ha)] at h
      cases h with
      | cons he ht =>
        rw [if_pos ha]
        simp only [he, Res.ok_bind, serializeFields_encodes fs _ _ ht]
        rfl
    · rw [List.filter_cons_of_neg (by simpa using ha)] at h
      rw [if_neg ha]
      exact serializeFields_encodes fs vs bs h

theorem serializeFields_ok {c : FieldDecl V → Codec V} {r : Nat} :
    ∀ (fs : List (FieldDecl V)) (vs : List V) (out : Bytes), vs.length = (aliveFields fs r).length →
    serializeFields (fun f v => (c f).enc v) r fs vs = .ok out →
    ∃ bs, Encodes c (aliveFields fs r) vs bs ∧ out = bs.flatten
  | [], vs, out, hl, h => by
    cases h
    have : vs = [] := List.length_eq_zero_iff.1 (by simpa [aliveFields] using hl)
    subst this
    exact ⟨[], .nil, rfl⟩
  | f :: fs, vs, out, hl, h => by
    unfold aliveFields at hl ⊢
    unfold serializeFields at h
    by_cases ha : f.existsAt r
    · rw [List.filter_cons_of_pos (by simpa using ha)] at hl ⊢
      rw [if_pos ha] at h
      cases vs with
      | nil => simp at hl
      | cons v vs =>
        simp only at h
        obtain ⟨b, hb, h⟩ := Res.bind_eq_ok.1 h
        obtain ⟨o, ho, h⟩ := Res.bind_eq_ok.1 h
        cases h
        obtain ⟨bs, hbs, rfl⟩ := serializeFields_ok fs vs o (by simpa [aliveFields] using hl) ho
        exact ⟨b :: bs, .cons hb hbs, rfl⟩
    · rw [List.filter_cons_of_neg (by simpa using ha)] at hl ⊢
      rw [if_neg ha] at h
      exact serializeFields_ok fs vs out hl h

theorem Encodes.length_eq {c : FieldDecl V → Codec V} {fs vs bs} (h : Encodes c fs vs bs) :
    vs.length = fs.length ∧ bs.length = fs.length := by
  induction h with
  | nil => exact ⟨rfl, rfl⟩
  | cons _ _ ih => simp [ih.1, ih.2]

/-- The offsets written from position `pos` on. -/
def offsetsFrom (pos : Nat) : List Bytes → Bytes
  | [] => []
  | b :: bs => leBytes 4 pos ++ offsetsFrom (pos + b.length) bs

theorem offsetsFrom_eq : ∀ (bs : List Bytes) (pos : Nat),
    offsetsFrom pos bs =
      (List.range bs.length).flatMap fun i => leBytes 4 (pos + ((bs.take i).flatten).length)
  | [], _ => rfl
  | b :: bs, pos => by
    rw [offsetsFrom, offsetsFrom_eq bs, List.length_cons, List.range_succ_eq_map, List.flatMap_cons,
      List.flatMap_map]
    simp [Nat.add_assoc]

theorem offsetTable_eq (bs : List Bytes) : offsetTable bs = offsetsFrom (4 * bs.length) bs := by
  rw [offsetsFrom_eq]; rfl

theorem offsetsFrom_length : ∀ (bs : List Bytes) (pos : Nat), (offsetsFrom pos bs).length = 4 * bs.length
  | [], _ => rfl
  | b :: bs, pos => by
    rw [offsetsFrom, List.length_append, leBytes_length, offsetsFrom_length bs]
    simp; omega

theorem serializeIndexed_eq {enc : FieldDecl V → V → Res Bytes} {r : Nat} :
    ∀ (fs : List (FieldDecl V)) (vs : List V) (pos : Nat),
    (∀ out, serializeFields enc r fs vs = .ok out → ∀ tb, serializeIndexedFields enc r fs vs pos = .ok tb → tb.2 = out) := by
  intro fs
  induction fs with
  | nil => intro vs pos out h tb h'; cases h; cases h'; rfl
  | cons f fs ih =>
    intro vs pos out h tb h'
    unfold serializeFields at h
    unfold serializeIndexedFields at h'
    by_cases ha : f.existsAt r
    · rw [if_pos ha] at h h'
      cases vs with
      | nil => cases h
      | cons v vs =>
        simp only at h h'
        obtain ⟨b, hb, h⟩ := Res.bind_eq_ok.1 h
        obtain ⟨o, ho, h⟩ := Res.bind_eq_ok.1 h
        cases h
        obtain ⟨b', hb', h'⟩ := Res.bind_eq_ok.1 h'
        rw [hb] at hb'; cases hb'
        obtain ⟨⟨t, bb⟩, hq, h'⟩ := Res.bind_eq_ok.1 h'
        cases h'
        have := ih vs _ o ho _ hq
        simp only at this ⊢
        rw [this]
    · rw [if_neg ha] at h h'
      exact ih vs pos out h tb h'

theorem serializeIndexedFields_encodes {c : FieldDecl V → Codec V} {r : Nat} :
    ∀ (fs : List (FieldDecl V)) (vs : List V) (bs : List Bytes) (pos : Nat),
    Encodes c (aliveFields fs r) vs bs →
    serializeIndexedFields (fun f v => (c f).enc v) r fs vs pos = .ok (offsetsFrom pos bs, bs.flatten)
  | [], vs, bs, pos, h => by cases h; rfl
  | f :: fs, vs, bs, pos, h => by
    unfold aliveFields at h
    unfold serializeIndexedFields
    by_cases ha : f.existsAt r
    · rw [List.filter_cons_of_pos (by simpa using ha)] at h
      cases h with
      | cons he ht =>
        rw [if_pos ha]
        simp only [he, Res.ok_bind, serializeIndexedFields_encodes fs _ _ _ ht]
        rfl
    · rw [List.filter_cons_of_neg (by simpa using ha)] at h
      rw [if_neg ha]
      exact serializeIndexedFields_encodes fs vs bs pos h

theorem serializeIndexedFields_ok {c : FieldDecl V → Codec V} {r : Nat} :
    ∀ (fs : List (FieldDecl V)) (vs : List V) (pos : Nat) (out : Bytes × Bytes),
    vs.length = (aliveFields fs r).length →
    serializeIndexedFields (fun f v => (c f).enc v) r fs vs pos = .ok out →
    ∃ bs, Encodes c (aliveFields fs r) vs bs
  | [], vs, pos, out, hl, h => by
    have : vs = [] := List.length_eq_zero_iff.1 (by simpa [aliveFields] using hl)
    subst this
    exact ⟨[], .nil⟩
  | f :: fs, vs, pos, out, hl, h => by
    unfold aliveFields at hl ⊢
    unfold serializeIndexedFields at h
    by_cases ha : f.existsAt r
    · rw [List.filter_cons_of_pos (by simpa using ha)] at hl ⊢
      rw [if_pos ha] at h
      cases vs with
      | nil => simp at hl
      | cons v vs =>
        simp only at h
        obtain ⟨b, hb, h⟩ := Res.bind_eq_ok.1 h
        obtain ⟨o, ho, h⟩ := Res.bind_eq_ok.1 h
        obtain ⟨bs, hbs⟩ := serializeIndexedFields_ok fs vs _ o (by simpa [aliveFields] using hl) ho
        exact ⟨b :: bs, .cons hb hbs⟩
    · rw [List.filter_cons_of_neg (by simpa using ha)] at hl ⊢
      rw [if_neg ha] at h
      exact serializeIndexedFields_ok fs vs pos out hl h

theorem serializeStructBody_encodes (e : Entry) (fs : List (FieldDecl V)) (vs : List V) (bs : List Bytes)
    (h : Encodes (fun f => f.wire e) (aliveFields fs e.revision) vs bs) :
    serializeStructBody e fs vs =
      if e.optimised = true ∧ 2 ^ 32 ≤ (structPayload e bs).length then .err .serialize
      else .ok (structLayout e bs) := by
  unfold serializeStructBody structLayout
  have hl := h.length_eq.2
  by_cases ho : e.optimised
  · simp only [if_pos ho]
    by_cases hi : e.indexedStruct
    · simp only [if_pos hi]
      rw [serializeIndexedFields_encodes fs vs bs _ h]
      have hc : 4 * aliveCount fs e.revision = 4 * bs.length := by rw [hl]; rfl
      simp only [Res.ok_bind, hc, ← offsetTable_eq]
      unfold lengthPrefixed structPayload
      simp only [if_pos hi]
      by_cases hlt : (offsetTable bs ++ bs.flatten).length < 2 ^ 32
      · rw [if_pos hlt, if_neg (fun hc => absurd hc.2 (by omega))]
      · rw [if_neg hlt, if_pos ⟨ho, by omega⟩]
    · simp only [if_neg hi]
      rw [serializeFields_encodes fs vs bs h]
      simp only [Res.ok_bind]
      unfold lengthPrefixed structPayload
      simp only [if_neg hi]
      by_cases hlt : (bs.flatten).length < 2 ^ 32
      · rw [if_pos hlt, if_neg (fun hc => absurd hc.2 (by omega))]
      · rw [if_neg hlt, if_pos ⟨ho, by omega⟩]
  · simp only [if_neg ho]
    rw [serializeFields_encodes fs vs bs h, if_neg (fun hc => ho hc.1)]

theorem serializeStructBody_ok (e : Entry) (fs : List (FieldDecl V)) (vs : List V) (out : Bytes)
    (hl : vs.length = (aliveFields fs e.revision).length)
    (h : serializeStructBody e fs vs = .ok out) :
    ∃ bs, Encodes (fun f => f.wire e) (aliveFields fs e.revision) vs bs := by
  unfold serializeStructBody at h
  simp only at h
  split at h
  · split at h
    · obtain ⟨o, ho, _⟩ := Res.bind_eq_ok.1 h
      exact serializeIndexedFields_ok fs vs _ o hl ho
    · obtain ⟨o, ho, _⟩ := Res.bind_eq_ok.1 h
      obtain ⟨bs, hbs, _⟩ := serializeFields_ok fs vs o hl ho
      exact ⟨bs, hbs⟩
  · obtain ⟨bs, hbs, _⟩ := serializeFields_ok fs vs out hl h
    exact ⟨bs, hbs⟩

theorem validFields_iff {c : FieldDecl V → Codec V} {r : Nat} :
    ∀ (fs : List (FieldDecl V)) (vs : List V), ValidFields c r fs vs ↔ AllValid c (aliveFields fs r) vs
  | [], vs => by
    simp only [ValidFields, aliveFields, List.filter_nil]
    constructor
    · rintro rfl; exact .nil
    · intro h; cases h; rfl
  | f :: fs, vs => by
    have ih := validFields_iff (c := c) (r := r) fs
    unfold ValidFields
    unfold aliveFields at ih ⊢
    by_cases ha : f.existsAt r
    · rw [if_pos ha, List.filter_cons_of_pos (by simpa using ha)]
      cases vs with
      | nil => exact ⟨fun h => h.elim, fun h => by cases h⟩
      | cons v vs =>
        constructor
        · rintro ⟨h1, h2⟩; exact .cons h1 ((ih vs).1 h2)
        · intro h; cases h with | cons h1 h2 => exact ⟨h1, (ih vs).2 h2⟩
    · rw [if_neg ha, List.filter_cons_of_neg (by simpa using ha)]
      exact ih vs

theorem AllValid.length_eq {c : FieldDecl V → Codec V} {fs vs} (h : AllValid c fs vs) :
    vs.length = fs.length := by
  induction h with
  | nil => rfl
  | cons _ _ ih => simp [ih]

/-! ### Deserialising -/

/-- The reader of each field gives back what was written for it. -/
def ReadsBack (c : FieldDecl V → Codec V) (rd : FieldDecl V → Rd V) (f : FieldDecl V) : Prop :=
  ∀ v b, (c f).valid v → (c f).enc v = .ok b → ∀ t, rd f (b ++ t) = .ok (v, t)

def bindsOf (ps : List (FieldDecl V × V)) : Binds V := ps.map fun p => (p.1.name, p.2)

theorem decodeFields_run {c : FieldDecl V → Codec V} {live removed : FieldDecl V → Rd V} {cur tgt : Nat} :
    ∀ (fs : List (FieldDecl V)) (vs : List V) (bs : List Bytes) (env : Binds V) (t : Bytes),
    (∀ f ∈ fs, f.existsAt cur = true → f.existsAt tgt = true → ReadsBack c live f) →
    (∀ f ∈ fs, f.existsAt cur = true → f.existsAt tgt = false → ReadsBack c removed f) →
    AllValid c (aliveFields fs cur) vs → Encodes c (aliveFields fs cur) vs bs →
    decodeFields live removed cur tgt fs env (bs.flatten ++ t) =
      ((fun ps => (bindsOf ps).reverse ++ env) <$> migratedFields cur tgt fs vs).andRest t
  | [], vs, bs, env, t, _, _, _, he => by
    cases he; rfl
  | f :: fs, vs, bs, env, t, hl, hr, hv, he => by
    have ih := decodeFields_run (c := c) (live := live) (removed := removed) (cur := cur) (tgt := tgt) fs
    unfold aliveFields at hv he
    unfold decodeFields migratedFields
    have hl' := fun g hg => hl g (List.mem_cons_of_mem _ hg)
    have hr' := fun g hg => hr g (List.mem_cons_of_mem _ hg)
    by_cases ha : f.existsAt cur
    · rw [List.filter_cons_of_pos (by simpa using ha)] at hv he
      cases hv with
      | cons hv1 hv2 =>
      cases he with
      | cons he1 he2 =>
      rename_i v vs b bs
      rw [List.flatten_cons, List.append_assoc]
      by_cases hb : f.existsAt tgt
      · simp only [ha, hb, Bool.and_self, if_true]
        rw [Rd.bind_of_ok (hl f List.mem_cons_self ha hb v b hv1 he1 _), ih vs bs _ t hl' hr' hv2 he2]
        cases hm : migratedFields cur tgt fs vs <;> simp [Res.andRest, bindsOf, Functor.map, Res.bind]
      · simp only [Bool.not_eq_true] at hb
        simp only [ha, hb, Bool.and_self, Bool.false_and, Bool.not_true, Bool.not_false, if_true,
          Bool.false_eq_true, if_false]
        rw [Rd.bind_of_ok (hr f List.mem_cons_self ha hb v b hv1 he1 _), ih vs bs _ t hl' hr' hv2 he2]
        cases hm : migratedFields cur tgt fs vs <;> simp [Res.andRest, bindsOf, Functor.map, Res.bind]
    · rw [List.filter_cons_of_neg (by simpa using ha)] at hv he
      simp only [Bool.not_eq_true] at ha
      by_cases hb : f.existsAt tgt
      · simp only [ha, hb, Bool.and_false, Bool.not_false, Bool.and_self, if_true, Bool.false_eq_true, if_false]
        cases hd : f.dflt cur with
        | ok v =>
          rw [Rd.bind_of_ok (a := v) (r := bs.flatten ++ t) rfl, ih vs bs _ t hl' hr' hv he]
          cases hm : migratedFields cur tgt fs vs <;> simp [Res.andRest, bindsOf, Functor.map, Res.bind]
        | err x => rw [Rd.bind_of_err (e := x) rfl]; rfl
        | panic => rw [Rd.bind_of_panic rfl]; rfl
      · simp only [Bool.not_eq_true] at hb
        simp only [ha, hb, Bool.and_false, Bool.not_false, Bool.and_self, Bool.false_eq_true,
          if_false, Bool.false_and]
        exact ih vs bs env t hl' hr' hv he

theorem migratedFields_fields {cur tgt : Nat} : ∀ (fs : List (FieldDecl V)) (vs : List V)
    (all : List (FieldDecl V × V)), migratedFields cur tgt fs vs = .ok all →
    all.map (·.1) = fs.filter (fun f => f.existsAt cur || f.existsAt tgt)
  | [], _, all, h => by cases h; rfl
  | f :: fs, vs, all, h => by
    unfold migratedFields at h
    by_cases ha : f.existsAt cur
    · rw [if_pos ha] at h
      cases vs with
      | nil => cases h
      | cons v vs =>
        simp only at h
        obtain ⟨rest, hr, h⟩ := Res.bind_eq_ok.1 h
        cases h
        rw [List.map_cons, migratedFields_fields fs vs rest hr, List.filter_cons_of_pos (by simp [ha])]
    · rw [if_neg ha] at h
      by_cases hb : f.existsAt tgt
      · rw [if_pos hb] at h
        obtain ⟨v, _, h⟩ := Res.bind_eq_ok.1 h
        obtain ⟨rest, hr, h⟩ := Res.bind_eq_ok.1 h
        cases h
        rw [List.map_cons, migratedFields_fields fs vs rest hr, List.filter_cons_of_pos (by simp [hb])]
      · rw [if_neg hb] at h
        rw [migratedFields_fields fs vs all h, List.filter_cons_of_neg (by simp [ha, hb])]

theorem construct_eq (tgt : Nat) (env : Binds V) (p : FieldDecl V → Bool) : ∀ (fs : List (FieldDecl V))
    (all : List (FieldDecl V × V)), (∀ f, f.existsAt tgt = true → p f = true) →
    all.map (·.1) = fs.filter p →
    (∀ q ∈ all, env.lookup q.1.name = some q.2) →
    construct tgt env fs = .ok ((all.filter fun q => q.1.existsAt tgt).map (·.2))
  | [], all, hp, h, hl => by
    simp only [List.filter_nil, List.map_eq_nil_iff] at h
    subst h; rfl
  | f :: fs, all, hp, h, hl => by
    unfold construct
    by_cases ha : f.existsAt tgt
    · rw [List.filter_cons_of_pos (hp f ha)] at h
      cases all with
      | nil => simp at h
      | cons q all =>
        simp only [List.map_cons, List.cons.injEq] at h
        obtain ⟨rfl, h⟩ := h
        rw [if_pos ha, List.filter_cons_of_pos (by simpa using ha)]
        simp only [useBind, hl q List.mem_cons_self, Res.ok_bind,
          construct_eq tgt env p fs all hp h (fun x hx => hl x (List.mem_cons_of_mem _ hx))]
        rfl
    · rw [if_neg ha]
      by_cases hpf : p f = true
      · rw [List.filter_cons_of_pos hpf] at h
        cases all with
        | nil => simp at h
        | cons q all =>
          simp only [List.map_cons, List.cons.injEq] at h
          obtain ⟨rfl, h⟩ := h
          rw [List.filter_cons_of_neg (by simpa using ha)]
          exact construct_eq tgt env p fs all hp h (fun x hx => hl x (List.mem_cons_of_mem _ hx))
      · rw [List.filter_cons_of_neg hpf] at h
        exact construct_eq tgt env p fs all hp h hl

theorem runConverts_eq (cur tgt : Nat) (env : Binds V) : ∀ (fs : List (FieldDecl V))
    (all : List (FieldDecl V × V)) (this : List V),
    all.map (·.1) = fs.filter (fun f => f.existsAt cur || f.existsAt tgt) →
    (∀ q ∈ all, env.lookup q.1.name = some q.2) →
    runConverts cur tgt env fs this = applyConverts cur (all.filter fun q => !q.1.existsAt tgt) this
  | [], all, this, h, hl => by
    simp only [List.filter_nil, List.map_eq_nil_iff] at h
    subst h; rfl
  | f :: fs, all, this, h, hl => by
    unfold runConverts
    by_cases hpf : (f.existsAt cur || f.existsAt tgt) = true
    · rw [List.filter_cons_of_pos (by simpa using hpf)] at h
      cases all with
      | nil => simp at h
      | cons q all =>
        simp only [List.map_cons, List.cons.injEq] at h
        obtain ⟨rfl, h⟩ := h
        have ih := fun this => runConverts_eq cur tgt env fs all this h
          (fun x hx => hl x (List.mem_cons_of_mem _ hx))
        by_cases ht : q.1.existsAt tgt = true
        · rw [if_neg (by simp [ht]), List.filter_cons_of_neg (by simp [ht]), ih]
        · have hc : q.1.existsAt cur = true := by simpa [ht] using hpf
          rw [if_pos (by simp [ht, hc]), List.filter_cons_of_pos (by simp [ht])]
          simp only [useBind, hl q List.mem_cons_self, Res.ok_bind, applyConverts, ih]
    · rw [List.filter_cons_of_neg (by simpa using hpf)] at h
      rw [if_neg (by simp at hpf; simp [hpf])]
      exact runConverts_eq cur tgt env fs all this h hl

theorem lift_andRest (x : Res α) (t : Bytes) : (Rd.lift x) t = x.andRest t := by
  cases x <;> rfl

theorem decodeStructBody_run {c : FieldDecl V → Codec V} {live removed : FieldDecl V → Rd V} {cur tgt : Nat}
    (fs : List (FieldDecl V)) (vs : List V) (bs : List Bytes) (t : Bytes)
    (hl : ∀ f ∈ fs, f.existsAt cur = true → f.existsAt tgt = true → ReadsBack c live f)
    (hr : ∀ f ∈ fs, f.existsAt cur = true → f.existsAt tgt = false → ReadsBack c removed f)
    (hn : DistinctNames fs cur tgt)
    (hv : AllValid c (aliveFields fs cur) vs) (he : Encodes c (aliveFields fs cur) vs bs) :
    decodeStructBody live removed cur tgt fs (bs.flatten ++ t) = (migrate cur tgt fs vs).andRest t := by
  unfold decodeStructBody migrate
  have h := decodeFields_run fs vs bs [] t hl hr hv he
  cases hm : migratedFields cur tgt fs vs with
  | err e => rw [hm] at h; rw [Rd.bind_of_err (e := e) h]; rfl
  | panic => rw [hm] at h; rw [Rd.bind_of_panic h]; rfl
  | ok all =>
    rw [hm] at h
    have h' : decodeFields live removed cur tgt fs [] (bs.flatten ++ t) = .ok ((bindsOf all).reverse, t) := by
      rw [h]; simp [Res.andRest, Functor.map, Res.bind]
    rw [Rd.bind_of_ok h']
    have hf := migratedFields_fields fs vs all hm
    have hk : (((bindsOf all).reverse).map (·.1)).Nodup := by
      rw [List.map_reverse, nodup_reverse_iff]
      unfold DistinctNames at hn
      rw [← hf, List.map_map] at hn
      unfold bindsOf
      rw [List.map_map]
      exact hn
    have hlook : ∀ q ∈ all, (bindsOf all).reverse.lookup q.1.name = some q.2 := by
      intro q hq
      refine lookup_eq_some_of_mem _ hk _ _ ?_
      exact List.mem_reverse.2 (List.mem_map.2 ⟨q, hq, rfl⟩)
    rw [construct_eq tgt _ _ fs all (fun f hf => by simp [hf]) hf hlook,
      Rd.bind_of_ok (a := (all.filter fun q => q.1.existsAt tgt).map (·.2)) (r := t) rfl,
      runConverts_eq cur tgt _ fs all _ hf hlook, lift_andRest]
    rfl

theorem Rd.within_of_ok {m : Rd α} {s r : Bytes} {a : α} (h : m s = .ok (a, r)) : m.within s = .ok a := by
  simp [Rd.within, h]

theorem Rd.within_andRest {m : Rd α} {s r : Bytes} {x : Res α} (h : m s = x.andRest r) : m.within s = x := by
  cases x <;> simp [Rd.within, h, Res.andRest]

/-- Reading a struct body written at entry `e` gives the migrated value. -/
theorem deserializeStructBody_run (e : Entry) (tgt : Nat) (fs : List (FieldDecl V)) (vs : List V)
    (b t : Bytes)
    (hl : ∀ f ∈ fs, f.existsAt e.revision = true → f.existsAt tgt = true →
      ReadsBack (fun f => f.wire e) (fun f => (f.wire e).dec) f)
    (hr : ∀ f ∈ fs, f.existsAt e.revision = true → f.existsAt tgt = false →
      ReadsBack (fun f => f.wire e) (fun f => f.removedDec e) f)
    (hn : DistinctNames fs e.revision tgt)
    (hv : AllValid (fun f => f.wire e) (aliveFields fs e.revision) vs)
    (he : serializeStructBody e fs vs = .ok b) :
    deserializeStructBody e tgt fs (b ++ t) = (migrate e.revision tgt fs vs).andRest t := by
  obtain ⟨bs, hbs⟩ := serializeStructBody_ok e fs vs b hv.length_eq he
  rw [serializeStructBody_encodes e fs vs bs hbs] at he
  have hrun := fun t => decodeStructBody_run fs vs bs t hl hr hn hv hbs
  unfold deserializeStructBody
  by_cases ho : e.optimised
  · by_cases hbig : 2 ^ 32 ≤ (structPayload e bs).length
    · rw [if_pos ⟨ho, hbig⟩] at he; cases he
    · rw [if_neg (fun hc => hbig hc.2)] at he
      cases he
      simp only [if_pos ho]
      unfold structLayout
      rw [if_pos ho, Rd.bind_of_ok (readLengthPrefixed_append _ (by omega) t)]
      by_cases hi : e.indexedStruct
      · simp only [if_pos hi]
        have htl : (offsetTable bs).length = 4 * aliveCount fs e.revision := by
          rw [offsetTable_eq, offsetsFrom_length, hbs.length_eq.2]; rfl
        unfold structPayload
        rw [if_pos hi, if_neg (by rw [List.length_append, htl]; omega), ← htl, List.drop_left]
        have := hrun []
        rw [List.append_nil] at this
        rw [Rd.within_andRest this, lift_andRest]
      · simp only [if_neg hi]
        unfold structPayload
        rw [if_neg hi]
        have := hrun []
        rw [List.append_nil] at this
        rw [Rd.within_andRest this, lift_andRest]
  · rw [if_neg (fun hc => ho hc.1)] at he
    cases he
    simp only [if_neg ho]
    unfold structLayout
    rw [if_neg ho]
    exact hrun t

/-! ### Nothing to migrate -/

theorem migratedFields_same {r : Nat} {c : FieldDecl V → Codec V} : ∀ (fs : List (FieldDecl V)) (vs : List V),
    AllValid c (aliveFields fs r) vs →
    migratedFields r r fs vs = .ok ((aliveFields fs r).zip vs)
  | [], vs, h => by cases h; rfl
  | f :: fs, vs, h => by
    unfold aliveFields at h ⊢
    unfold migratedFields
    by_cases ha : f.existsAt r
    · rw [List.filter_cons_of_pos (by simpa using ha)] at h ⊢
      cases h with
      | cons h1 h2 =>
        rw [if_pos ha]
        simp only [migratedFields_same fs _ h2, Res.ok_bind]
        rfl
    · rw [List.filter_cons_of_neg (by simpa using ha)] at h ⊢
      rw [if_neg ha, if_neg ha]
      exact migratedFields_same fs vs h

theorem migrate_same {r : Nat} {c : FieldDecl V → Codec V} (fs : List (FieldDecl V)) (vs : List V)
    (h : AllValid c (aliveFields fs r) vs) : migrate r r fs vs = .ok vs := by
  unfold migrate
  rw [migratedFields_same fs vs h]
  simp only [Res.ok_bind]
  have hall : ∀ p ∈ (aliveFields fs r).zip vs, p.1.existsAt r = true := by
    intro p hp
    have := (List.of_mem_zip hp).1
    exact (List.mem_filter.1 this).2
  have h1 : ((aliveFields fs r).zip vs).filter (fun p => !p.1.existsAt r) = [] := by
    rw [List.filter_eq_nil_iff]
    intro p hp; simp [hall p hp]
  have h2 : ((aliveFields fs r).zip vs).filter (fun p => p.1.existsAt r) = (aliveFields fs r).zip vs := by
    rw [List.filter_eq_self]
    exact hall
  rw [h1, h2, List.map_snd_zip (by rw [h.length_eq]; exact Nat.le_refl _)]
  rfl

/-! ### Older programs -/

theorem asOf_exists {r : Nat} (hr : r < 2 ^ 64 - 1) (f : FieldDecl V) :
    match f.asOf r with
    | some g => g.existsAt r = f.existsAt r ∧ (∀ e, g.wire e = f.wire e) ∧ g.name = f.name
    | none => f.existsAt r = false := by
  unfold FieldDecl.asOf
  by_cases h : f.opts.start.getD 0 ≤ r
  · rw [if_pos h]
    refine ⟨?_, fun e => rfl, rfl⟩
    unfold FieldDecl.existsAt existsAt
    simp only
    cases hs : f.opts.stop with
    | none => rfl
    | some x =>
      by_cases hx : x ≤ r
      · simp [Option.filter, hx]
      · have h1 : decide (r < 2 ^ 64 - 1) = true := by simpa using hr
        have h2 : decide (r < x) = true := by simp; omega
        simp only [Option.filter, hx, decide_false, Bool.false_eq_true, if_false, Option.getD_none,
          Option.getD_some, gt_iff_lt, h1, h2]
  · rw [if_neg h]
    unfold FieldDecl.existsAt existsAt
    simp [h]

theorem aliveCount_asOf {r : Nat} (hr : r < 2 ^ 64 - 1) (fs : List (FieldDecl V)) :
    aliveCount (fieldsAsOf r fs) r = aliveCount fs r := by
  unfold aliveCount fieldsAsOf
  induction fs with
  | nil => rfl
  | cons f fs ih =>
    have h := asOf_exists hr f
    rw [List.filterMap_cons]
    cases hf : f.asOf r with
    | none =>
      rw [hf] at h
      simp only at h ⊢
      rw [List.filter_cons_of_neg (by simp [h]), ih]
    | some g =>
      rw [hf] at h
      simp only at h ⊢
      by_cases ha : f.existsAt r
      · rw [List.filter_cons_of_pos (by rw [h.1]; exact ha), List.filter_cons_of_pos (by simpa using ha)]
        simp only [List.length_cons, ih]
      · rw [List.filter_cons_of_neg (by rw [h.1]; exact ha), List.filter_cons_of_neg (by simpa using ha), ih]

theorem serializeFields_asOf {r : Nat} (hr : r < 2 ^ 64 - 1) (e : Entry) : ∀ (fs : List (FieldDecl V)) (vs : List V),
    serializeFields (fun f v => (f.wire e).enc v) r (fieldsAsOf r fs) vs =
      serializeFields (fun f v => (f.wire e).enc v) r fs vs
  | [], vs => rfl
  | f :: fs, vs => by
    have h := asOf_exists hr f
    have ih := serializeFields_asOf hr e fs
    unfold fieldsAsOf at ih ⊢
    rw [List.filterMap_cons]
    cases hf : f.asOf r with
    | none =>
      rw [hf] at h
      simp only at h ⊢
      conv => rhs; unfold serializeFields
      rw [if_neg (by simp [h]), ih]
    | some g =>
      rw [hf] at h
      simp only at h ⊢
      unfold serializeFields
      rw [h.1]
      simp only [h.2.1, ih]

theorem serializeIndexedFields_asOf {r : Nat} (hr : r < 2 ^ 64 - 1) (e : Entry) :
    ∀ (fs : List (FieldDecl V)) (vs : List V) (pos : Nat),
    serializeIndexedFields (fun f v => (f.wire e).enc v) r (fieldsAsOf r fs) vs pos =
      serializeIndexedFields (fun f v => (f.wire e).enc v) r fs vs pos
  | [], vs, pos => rfl
  | f :: fs, vs, pos => by
    have h := asOf_exists hr f
    have ih := serializeIndexedFields_asOf hr e fs
    unfold fieldsAsOf at ih ⊢
    rw [List.filterMap_cons]
    cases hf : f.asOf r with
    | none =>
      rw [hf] at h
      simp only at h ⊢
      conv => rhs; unfold serializeIndexedFields
      rw [if_neg (by simp [h]), ih]
    | some g =>
      rw [hf] at h
      simp only at h ⊢
      unfold serializeIndexedFields
      rw [h.1]
      simp only [h.2.1, ih]

theorem serializeStructBody_asOf (e : Entry) (hr : e.revision < 2 ^ 64 - 1) (fs : List (FieldDecl V))
    (vs : List V) : serializeStructBody e (fieldsAsOf e.revision fs) vs = serializeStructBody e fs vs := by
  unfold serializeStructBody
  simp only [aliveCount_asOf hr, serializeFields_asOf hr, serializeIndexedFields_asOf hr]

theorem validFields_asOf {r : Nat} (hr : r < 2 ^ 64 - 1) (e : Entry) : ∀ (fs : List (FieldDecl V)) (vs : List V),
    ValidFields (fun f => f.wire e) r (fieldsAsOf r fs) vs ↔ ValidFields (fun f => f.wire e) r fs vs
  | [], vs => Iff.rfl
  | f :: fs, vs => by
    have h := asOf_exists hr f
    have ih := validFields_asOf hr e fs
    unfold fieldsAsOf at ih ⊢
    rw [List.filterMap_cons]
    cases hf : f.asOf r with
    | none =>
      rw [hf] at h
      simp only at h ⊢
      conv => rhs; unfold ValidFields
      rw [if_neg (by simp [h]), ih]
    | some g =>
      rw [hf] at h
      simp only at h ⊢
      unfold ValidFields
      rw [h.1]
      simp only [h.2.1, ih]

end Revision

namespace Revision

variable {V : Type}

/-! ### Skipping -/

theorem decodeFields_agree {live removed : FieldDecl V → Rd V} {skip : FieldDecl V → Rd Unit} {cur tgt : Nat} :
    ∀ (fs : List (FieldDecl V)) (env : Binds V),
    (∀ f ∈ fs, f.existsAt cur = true → (live f).Agree (skip f) ∧ (removed f).Agree (skip f)) →
    (decodeFields live removed cur tgt fs env).Agree (skipFields skip cur tgt fs)
  | [], env, _ => .pure _ _
  | f :: fs, env, h => by
    have ih := fun env => decodeFields_agree (live := live) (removed := removed) (skip := skip)
      (cur := cur) (tgt := tgt) fs env (fun g hg => h g (List.mem_cons_of_mem _ hg))
    unfold decodeFields skipFields
    by_cases ha : f.existsAt cur
    · have hf := h f List.mem_cons_self ha
      by_cases hb : f.existsAt tgt
      · simp only [ha, hb, Bool.and_self, if_true]
        exact hf.1.bind fun _ _ => ih _
      · simp only [Bool.not_eq_true] at hb
        simp only [ha, hb, Bool.and_self, Bool.false_and, Bool.not_true, Bool.not_false, if_true,
          Bool.false_eq_true, if_false]
        exact hf.2.bind fun _ _ => ih _
    · simp only [Bool.not_eq_true] at ha
      by_cases hb : f.existsAt tgt
      · simp only [ha, hb, Bool.and_false, Bool.not_false, Bool.and_self, if_true, Bool.false_eq_true, if_false]
        intro s a r hs
        obtain ⟨v, r', h1, h2⟩ := Rd.bind_ok.1 hs
        obtain ⟨_, rfl⟩ := lift_run_ok.1 h1
        exact ih _ s a r h2
      · simp only [Bool.not_eq_true] at hb
        simp only [ha, hb, Bool.and_false, Bool.not_false, Bool.and_self, Bool.false_eq_true,
          if_false, Bool.false_and]
        exact ih env

theorem decodeStructBody_agree {live removed : FieldDecl V → Rd V} {skip : FieldDecl V → Rd Unit} {cur tgt : Nat}
    (fs : List (FieldDecl V))
    (h : ∀ f ∈ fs, f.existsAt cur = true → (live f).Agree (skip f) ∧ (removed f).Agree (skip f)) :
    (decodeStructBody live removed cur tgt fs).Agree (skipFields skip cur tgt fs) := by
  intro s a r hs
  unfold decodeStructBody at hs
  obtain ⟨env, r1, h1, h2⟩ := Rd.bind_ok.1 hs
  obtain ⟨this, r2, h3, h4⟩ := Rd.bind_ok.1 h2
  obtain ⟨_, rfl⟩ := lift_run_ok.1 h3
  obtain ⟨_, rfl⟩ := lift_run_ok.1 h4
  exact decodeFields_agree fs [] h s env _ h1

theorem readLengthPrefixed_agree {adv : Nat → Rd Unit} (hadv : ∀ n, (Rd.readExact n).Agree (adv n)) :
    readLengthPrefixed.Agree (readVarlenLen >>= adv) :=
  Rd.Agree.bind_same fun n => hadv n

theorem Rd.Agree.readExact_consume (n : Nat) : (Rd.readExact n).Agree (Rd.consume n) := by
  intro s a r h
  refine ⟨(), ?_⟩
  simp only [Rd.readExact, Rd.consume] at h ⊢
  split at h
  · rename_i hle
    cases h
    rw [if_neg (by omega)]
  · cases h

theorem deserializeStructBody_agree (e : Entry) (tgt : Nat) (fs : List (FieldDecl V))
    {adv : Nat → Rd Unit} (hadv : ∀ n, (Rd.readExact n).Agree (adv n)) {skip : FieldDecl V → Rd Unit}
    (h : e.optimised = false → ∀ f ∈ fs, f.existsAt e.revision = true → f.legacyC.dec.Agree (skip f)) :
    (deserializeStructBody e tgt fs).Agree
      (if e.optimised then readVarlenLen >>= adv else skipFields skip e.revision tgt fs) := by
  unfold deserializeStructBody
  by_cases ho : e.optimised
  · simp only [if_pos ho]
    intro s a r hs
    obtain ⟨p, r1, h1, h2⟩ := Rd.bind_ok.1 hs
    have hr : r1 = r := by
      by_cases hi : e.indexedStruct
      · simp only [if_pos hi] at h2
        split at h2
        · cases h2
        · exact (lift_run_ok.1 h2).2
      · simp only [if_neg hi] at h2
        exact (lift_run_ok.1 h2).2
    subst hr
    exact readLengthPrefixed_agree hadv s p r1 h1
  · simp only [if_neg ho]
    refine decodeStructBody_agree fs ?_
    intro f hf ha
    have := h (by simpa using ho) f hf ha
    unfold FieldDecl.wire FieldDecl.removedDec
    simp only [if_neg ho]
    exact ⟨this, this⟩

theorem dispatch_agree (cfg : Cfg) (h : List Entry) {arm : Entry → Rd α} {arm' : Entry → Rd β}
    (ha : ∀ e ∈ h, (arm e).Agree (arm' e)) :
    (dispatchRevision cfg h arm).Agree (dispatchRevision cfg h arm') := by
  refine Rd.Agree.bind_same fun r => ?_
  cases hf : h.find? (fun e => e.revision == r) with
  | none => exact .fail_left
  | some e => exact ha e (List.mem_of_find?_eq_some hf)

end Revision
