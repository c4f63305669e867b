import Verif.Proofs.Machine
import Verif.Proofs.WireIndexed

/-! Helper lemmas: indexed collections and derived types on other machines. -/

namespace Revision

namespace Machine

variable {M : Machine} {cfg : Cfg} {κ ν α : Type} {k : Codec κ} {v : Codec ν} {c : Codec α}

theorem room (hM : M.bits ≤ 64) {x : Nat} (h : M.bits < 64 → x < 2 ^ M.bits) (h' : x < 2 ^ 64) : x < 2 ^ M.bits := by
  by_cases hlt : M.bits < 64
  · exact h hlt
  · have : M.bits = 64 := by omega
    rw [this]; exact h'

theorem readVarint_write (hM : M.bits ≤ 64) {n : Nat} (h : n < 2 ^ M.bits) (t : Bytes) :
    M.readVarint (writeVarint n ++ t) = .ok (n, t) := by
  unfold readVarint
  rw [Rd.bind_of_ok (Revision.readVarint_write n (lt64 hM h) t)]
  show Rd.lift (M.tryUsize n) t = _
  rw [show M.tryUsize n = .ok n from if_pos h]
  rfl

theorem small_lt (h32 : 32 ≤ M.bits) {n : Nat} (h : n < 2 ^ 32) : n < 2 ^ M.bits :=
  Nat.lt_of_lt_of_le h (Nat.pow_le_pow_right (by decide) h32)

theorem same_bind {m : Rd α} {f g : α → Rd β} {s : Bytes} (h : ∀ a r, f a r = g a r) : (m >>= f) s = (m >>= g) s := by
  cases hm : m s with
  | ok p =>
    obtain ⟨a, r⟩ := p
    rw [Rd.bind_of_ok hm, Rd.bind_of_ok hm]; exact h a r
  | err e => rw [Rd.bind_of_err hm, Rd.bind_of_err hm]
  | panic => rw [Rd.bind_of_panic hm, Rd.bind_of_panic hm]

/-- Reading a written sequence on this machine. -/
theorem seq_same (h32 : 32 ≤ M.bits) (hM : M.bits ≤ 64) {bs : List Bytes} {b : Bytes} (hw : writeSeqBodies bs = .ok b)
    (hn : bs.length < 2 ^ 56) (hb : M.Holds (.ok b)) (cap : Nat → Bool) (m : Rd α) (s : Rd Unit) (t : Bytes) :
    M.readIndexedSeq cap m (b ++ t) = Revision.readIndexedSeq cap m (b ++ t) ∧
    M.skipIndexedSeq s (b ++ t) = Revision.skipIndexedSeq s (b ++ t) := by
  rcases writeSeqBodies_ok hw with ⟨h8, rfl⟩ | ⟨h8, os, last, ho, rfl⟩
  · have hf : bs.length < 2 ^ M.bits := small_lt h32 (by omega)
    rw [List.cons_append, List.append_assoc]
    unfold readIndexedSeq Revision.readIndexedSeq skipIndexedSeq Revision.skipIndexedSeq
    constructor <;>
    rw [Rd.bind_of_ok (Rd.readByte_cons _ _), Rd.bind_of_ok (Rd.readByte_cons _ _),
        Rd.bind_of_ok (readVarint_write hM hf _), Rd.bind_of_ok (Revision.readVarint_write _ (lt64 hM hf) _),
        if_pos (by decide), if_pos (by decide)]
  · have hol := seqOffsets_length ho
    have hm : bs.length * 4 < 2 ^ M.bits := by
      refine room hM (fun h => ?_) (by omega)
      have := hb h _ rfl
      simp only [List.length_cons, List.length_append, tbl_length] at this
      omega
    have hf : bs.length < 2 ^ M.bits := by omega
    have e1 : M.checkedMul bs.length 4 .overrun = .ok (bs.length * 4) := if_pos hm
    have e2 : Revision.checkedMul bs.length 4 .overrun = .ok (bs.length * 4) := if_pos (lt64 hM hm)
    rw [List.cons_append, List.append_assoc]
    unfold readIndexedSeq Revision.readIndexedSeq skipIndexedSeq Revision.skipIndexedSeq
    constructor
    · rw [Rd.bind_of_ok (Rd.readByte_cons _ _), Rd.bind_of_ok (Rd.readByte_cons _ _),
        Rd.bind_of_ok (readVarint_write hM hf _), Rd.bind_of_ok (Revision.readVarint_write _ (lt64 hM hf) _),
        if_neg (by decide), if_neg (by decide), e1, e2]
    · rw [Rd.bind_of_ok (Rd.readByte_cons _ _), Rd.bind_of_ok (Rd.readByte_cons _ _),
        Rd.bind_of_ok (readVarint_write hM hf _), Rd.bind_of_ok (Revision.readVarint_write _ (lt64 hM hf) _),
        if_neg (by decide), if_neg (by omega), if_neg (by decide), if_neg (by omega), e1, e2]

/-- Reading a written map on this machine. -/
theorem map_same (h32 : 32 ≤ M.bits) (hM : M.bits ≤ 64) {ps : List (Bytes × Bytes)} {b : Bytes}
    (hw : writeMapPairs ps = .ok b) (hn : ps.length < 2 ^ 56)
    (hs : ∀ p ∈ ps, p.1.length < 2 ^ 32 ∧ p.2.length < 2 ^ 32) (hb : M.Holds (.ok b)) (pre capK capV : Nat → Bool)
    (mk : Rd κ) (mv : Rd ν) (build : List (κ × ν) → List (κ × ν)) (s s' : Rd Unit) (t : Bytes) :
    M.readIndexedMap pre capK capV mk mv build (b ++ t) = Revision.readIndexedMap pre capK capV mk mv build (b ++ t) ∧
    M.skipIndexedMap s s' (b ++ t) = Revision.skipIndexedMap s s' (b ++ t) := by
  rcases writeMapPairs_ok hw with ⟨h8, rfl⟩ | ⟨h8, os, kl, vl, ho, rfl⟩
  · have hf : ps.length < 2 ^ M.bits := small_lt h32 (by omega)
    rw [List.cons_append, List.append_assoc]
    unfold readIndexedMap Revision.readIndexedMap skipIndexedMap Revision.skipIndexedMap
    constructor
    · rw [Rd.bind_of_ok (Rd.readByte_cons _ _), Rd.bind_of_ok (Rd.readByte_cons _ _),
        Rd.bind_of_ok (readVarint_write hM hf _), Rd.bind_of_ok (Revision.readVarint_write _ (lt64 hM hf) _)]
      refine same_bind fun _ _ => ?_
      rw [if_pos (by decide), if_pos (by decide)]
    · rw [Rd.bind_of_ok (Rd.readByte_cons _ _), Rd.bind_of_ok (Rd.readByte_cons _ _),
        Rd.bind_of_ok (readVarint_write hM hf _), Rd.bind_of_ok (Revision.readVarint_write _ (lt64 hM hf) _),
        if_pos (by decide), if_pos (by decide)]
  · have hol := mapOffsets_length ho
    rw [mapOffsets_small hs 0 0 (by decide) (by decide)] at ho
    split at ho
    case isFalse => cases ho
    case isTrue hfit =>
    simp only [Res.ok.injEq, Prod.mk.injEq, Nat.zero_add] at ho hfit
    obtain ⟨_, rfl, rfl⟩ := ho
    have hlen : M.bits < 64 → ps.length * 8 + 8 + ((ps.map Prod.fst).flatten.length + (ps.map Prod.snd).flatten.length) < 2 ^ M.bits := by
      intro h
      have := hb h _ rfl
      simp only [List.length_cons, List.length_append, pairTable_length, leBytes_length] at this
      omega
    have ha : ps.length * 8 + 8 < 2 ^ M.bits := room hM (fun h => by have := hlen h; omega) (by omega)
    have hd : (ps.map Prod.fst).flatten.length + (ps.map Prod.snd).flatten.length < 2 ^ M.bits :=
      room hM (fun h => by have := hlen h; omega) (by omega)
    have hm : ps.length * 8 < 2 ^ M.bits := by omega
    have hf : ps.length < 2 ^ M.bits := by omega
    have e1 : M.checkedMul ps.length 8 .overrun = .ok (ps.length * 8) := if_pos hm
    have e2 : Revision.checkedMul ps.length 8 .overrun = .ok (ps.length * 8) := if_pos (lt64 hM hm)
    have e3 : M.add (ps.length * 8) 8 = .ok (ps.length * 8 + 8) := if_pos ha
    have e4 : addU (ps.length * 8) 8 = .ok (ps.length * 8 + 8) := if_pos (lt64 hM ha)
    rw [List.cons_append, List.append_assoc]
    unfold readIndexedMap Revision.readIndexedMap skipIndexedMap Revision.skipIndexedMap
    constructor
    · rw [Rd.bind_of_ok (Rd.readByte_cons _ _), Rd.bind_of_ok (Rd.readByte_cons _ _),
        Rd.bind_of_ok (readVarint_write hM hf _), Rd.bind_of_ok (Revision.readVarint_write _ (lt64 hM hf) _)]
      refine same_bind fun _ _ => ?_
      rw [if_neg (by decide), if_neg (by decide), e1, e2, Rd.lift_ok, Rd.pure_bind, Rd.pure_bind, e3, e4]
    · rw [Rd.bind_of_ok (Rd.readByte_cons _ _), Rd.bind_of_ok (Rd.readByte_cons _ _),
        Rd.bind_of_ok (readVarint_write hM hf _), Rd.bind_of_ok (Revision.readVarint_write _ (lt64 hM hf) _),
        if_neg (by decide), if_neg (by decide), e1, e2, Rd.lift_ok, Rd.pure_bind, Rd.pure_bind, List.append_assoc,
        Rd.bind_of_ok (Rd.advance_append _ _ _ (by rw [pairTable_length]; omega)),
        Rd.bind_of_ok (Rd.advance_append _ _ _ (by rw [pairTable_length]; omega))]
      have hx : Rd.readExact 8 (leBytes 4 (ps.map Prod.fst).flatten.length ++
          (leBytes 4 (ps.map Prod.snd).flatten.length ++ ((ps.map Prod.fst).flatten ++ (ps.map Prod.snd).flatten)) ++ t) =
          .ok (leBytes 4 (ps.map Prod.fst).flatten.length ++ leBytes 4 (ps.map Prod.snd).flatten.length,
            ((ps.map Prod.fst).flatten ++ (ps.map Prod.snd).flatten) ++ t) := by
        have := Rd.readExact_append (leBytes 4 (ps.map Prod.fst).flatten.length ++ leBytes 4 (ps.map Prod.snd).flatten.length)
          (((ps.map Prod.fst).flatten ++ (ps.map Prod.snd).flatten) ++ t) 8 (by
            rw [List.length_append, leBytes_length, leBytes_length])
        simp only [List.append_assoc] at this ⊢
        exact this
      rw [Rd.bind_of_ok hx, Rd.bind_of_ok hx]
      simp only [List.take_left' (leBytes_length 4 _), List.drop_left' (leBytes_length 4 _), leVal_leBytes]
      rw [Nat.mod_eq_of_lt hfit.1, Nat.mod_eq_of_lt hfit.2,
        show M.checkedAdd _ _ .overrun = .ok ((ps.map Prod.fst).flatten.length + (ps.map Prod.snd).flatten.length) from if_pos hd,
        Rd.lift_ok, Rd.pure_bind]

/-! ### The codecs -/

theorem indexedSeqC_faithful (h32 : 32 ≤ M.bits) (hM : M.bits ≤ 64) (hc : c.Faithful) (cap : Nat → Bool) :
    (M.indexedSeqC cap c).Faithful := by
  refine .transport (d := Revision.indexedSeqC cap c) (Revision.indexedSeqC_faithful hc cap) (fun _ h => h.1) (fun _ _ h => h) ?_
  rintro l b t ⟨⟨hn, _⟩, hh⟩ hb
  have hb : serializeIndexedSeq c.enc l = .ok b := hb
  obtain ⟨bs, h1, h2⟩ := Res.bind_eq_ok.1 hb
  have hl := encEach_length h1
  have := fun s => seq_same h32 hM h2 (by omega) (hb ▸ hh) cap c.dec s t
  exact ⟨(this c.skip).1, (this c.skip).2, (this c.skip).2, Rd.discard_congr (this c.skip).1⟩

theorem set_same (h32 : 32 ≤ M.bits) (hM : M.bits ≤ 64) {l : List α} {b : Bytes} (hn : l.length < 2 ^ 56)
    (hb : serializeIndexedSet c.enc l = .ok b) (hh : M.Holds (serializeIndexedSet c.enc l)) (cap : Nat → Bool) (t : Bytes) :
    M.readIndexedSeq cap c.dec (b ++ t) = Revision.readIndexedSeq cap c.dec (b ++ t) ∧
    M.skipIndexedSeq c.skip (b ++ t) = Revision.skipIndexedSeq c.skip (b ++ t) := by
  obtain ⟨bs, h1, h2⟩ := Res.bind_eq_ok.1 hb
  have hl := encEach_length h1
  exact seq_same h32 hM h2 (by rw [List.length_mergeSort]; omega) (hb ▸ hh) cap c.dec c.skip t

theorem indexedBTreeSetC_faithful (h32 : 32 ≤ M.bits) (hM : M.bits ≤ 64) (hc : c.Faithful) (cmp : α → α → Ordering)
    [Std.TransCmp cmp] (cap : Nat → Bool) : (M.indexedBTreeSetC cap cmp c).Faithful := by
  refine .transport (d := Revision.indexedBTreeSetC cap cmp c) (Revision.indexedBTreeSetC_faithful hc cmp cap) (fun _ h => h.1)
    (fun _ _ h => h) ?_
  rintro l b t ⟨⟨hn, _⟩, hh⟩ hb
  have := set_same (c := c) h32 hM hn hb hh cap t
  exact ⟨Rd.bind_congr this.1, this.2, this.2, Rd.discard_congr this.1⟩

theorem indexedHashSetC_faithful (h32 : 32 ≤ M.bits) (hM : M.bits ≤ 64) (hc : c.Faithful) (eq : α → α → Bool)
    (cap : Nat → Bool) : (M.indexedHashSetC cap eq c).Faithful := by
  refine .transport (d := Revision.indexedHashSetC cap eq c) (Revision.indexedHashSetC_faithful hc eq cap) (fun _ h => h.1)
    (fun _ _ h => h) ?_
  rintro l b t ⟨⟨hn, _⟩, hh⟩ hb
  have := set_same (c := c) h32 hM hn hb hh cap t
  exact ⟨Rd.bind_congr this.1, this.2, this.2, Rd.discard_congr this.1⟩

theorem entries_same (h32 : 32 ≤ M.bits) (hM : M.bits ≤ 64) {l : List (κ × ν)} {b : Bytes} (hn : l.length < 2 ^ 56)
    (hs : SmallPairs k.enc v.enc l) (hb : serializeIndexedEntries k.enc v.enc l = .ok b)
    (hh : M.Holds (serializeIndexedEntries k.enc v.enc l)) (pre capK capV : Nat → Bool)
    (build : List (κ × ν) → List (κ × ν)) (t : Bytes) :
    M.readIndexedMap pre capK capV k.dec v.dec build (b ++ t) =
      Revision.readIndexedMap pre capK capV k.dec v.dec build (b ++ t) ∧
    M.skipIndexedMap k.skip v.skip (b ++ t) = Revision.skipIndexedMap k.skip v.skip (b ++ t) := by
  obtain ⟨ps, h1, h2⟩ := Res.bind_eq_ok.1 hb
  have hl := encEach_length h1
  refine map_same h32 hM h2 (by rw [List.length_mergeSort]; omega) ?_ (hb ▸ hh) pre capK capV k.dec v.dec build k.skip v.skip t
  intro p hp
  obtain ⟨e, he, x⟩ := (encEach_mem h1 p).1 (List.mem_mergeSort.1 hp)
  have := encPair_ok.1 x
  exact ⟨(hs e he).1 _ this.1, (hs e he).2 _ this.2⟩

theorem indexedBTreeMapC_faithful (h32 : 32 ≤ M.bits) (hM : M.bits ≤ 64) (hk : k.Faithful) (hv : v.Faithful)
    (cmp : κ → κ → Ordering) [Std.TransCmp cmp] (capK capV : Nat → Bool) :
    (M.indexedBTreeMapC capK capV cmp k v).Faithful := by
  refine .transport (d := Revision.indexedBTreeMapC capK capV cmp k v)
    (Revision.indexedBTreeMapC_faithful hk hv cmp capK capV) (fun _ h => h.1) (fun _ _ h => h) ?_
  rintro l b t ⟨⟨hn, _, _, _, hs, _⟩, hh⟩ hb
  have := entries_same (k := k) (v := v) h32 hM hn hs hb hh (fun _ => true) capK capV (fun l => l.foldl (btreeInsert cmp) []) t
  exact ⟨this.1, this.2, this.2, Rd.discard_congr this.1⟩

theorem indexedHashMapC_faithful (h32 : 32 ≤ M.bits) (hM : M.bits ≤ 64) (hk : k.Faithful) (hv : v.Faithful)
    (eq : κ → κ → Bool) (pre capK capV : Nat → Bool) : (M.indexedHashMapC pre capK capV eq k v).Faithful := by
  refine .transport (d := Revision.indexedHashMapC pre capK capV eq k v)
    (Revision.indexedHashMapC_faithful hk hv eq pre capK capV) (fun _ h => h.1) (fun _ _ h => h) ?_
  rintro l b t ⟨⟨hn, _, _, _, _, hs, _⟩, hh⟩ hb
  have := entries_same (k := k) (v := v) h32 hM hn hs hb hh pre capK capV (fun l => l.foldl (hashInsert eq) []) t
  exact ⟨this.1, this.2, this.2, Rd.discard_congr this.1⟩

/-! ### Field codecs -/

section
variable {ι : Type} {E : Env ι}

theorem fixedOf_faithful (h1 : 1 ≤ M.bits) (hM : M.bits ≤ 64) (hx : ∀ i, (E.extC i).Faithful) (t : Ty ι) :
    (M.fixedOf cfg E t).Faithful := by
  cases t with
  | int k =>
    have : (Revision.fixedIntC cfg k).Faithful := (fixedIntC_lawful cfg k).faithful (fixedIntC_checks cfg k)
    cases k <;> first | exact this | exact intC_faithful h1 _
  | _ => exact codec_faithful h1 hM hx _

theorem bulkOf_faithful (h1 : 1 ≤ M.bits) (hM : M.bits ≤ 64) (hx : ∀ i, (E.extC i).Faithful) (t : Ty ι) :
    (M.bulkOf cfg E t).Faithful := by
  cases t with
  | vec t => exact vecOf_faithful hM t (codec_faithful h1 hM hx t)
  | _ => exact codec_faithful h1 hM hx _

theorem indexedOf_faithful (h32 : 32 ≤ M.bits) (hM : M.bits ≤ 64) (htrans : ∀ t, Std.TransCmp (E.cmp t))
    (hx : ∀ i, (E.extC i).Faithful) (t : Ty ι) : (M.indexedOf cfg E t).Faithful := by
  have hf := fun t => codec_faithful (M := M) (cfg := cfg) (by omega) hM hx t
  cases t with
  | btreeMap k v =>
    have := htrans k
    exact indexedBTreeMapC_faithful h32 hM (hf k) (hf v) _ _ _
  | hashMap k v => exact indexedHashMapC_faithful h32 hM (hf k) (hf v) _ _ _ _
  | vec t | vector t => exact indexedSeqC_faithful h32 hM (hf t) _
  | btreeSet k =>
    have := htrans k
    exact indexedBTreeSetC_faithful h32 hM (hf k) _ _
  | hashSet k => exact indexedHashSetC_faithful h32 hM (hf k) _ _
  | _ => exact hf _

end

/-! ### Derived types -/

section
variable {ι : Type} {K : ι → Kind} [DecidableEq ι] {I : Impls K} {n : Nat} {x : (i : ι) → Codec (Values K n i)}

theorem plain_faithful (h1 : 1 ≤ M.bits) (hM : M.bits ≤ 64) (hc : ∀ i, (x i).Faithful) (f : Field K) :
    (M.decl cfg I n x f).plain.Faithful :=
  dynC_faithful f.ty (codec_faithful (E := I.env n x) h1 hM hc f.ty)

theorem legacy_faithful (h1 : 1 ≤ M.bits) (hM : M.bits ≤ 64) (hc : ∀ i, (x i).Faithful) (f : Field K)
    (hs : f.Skippable cfg) : (M.decl cfg I n x f).LegacyFaithful := by
  have hp := plain_faithful (cfg := cfg) (I := I) h1 hM hc f
  have hf : (M.decl cfg I n x f).fixedLe.Faithful :=
    dynC_faithful f.ty (fixedOf_faithful (E := I.env n x) h1 hM hc f.ty)
  have hb : (M.decl cfg I n x f).bulk.Faithful := dynC_faithful f.ty (bulkOf_faithful (E := I.env n x) h1 hM hc f.ty)
  have hbp : f.opts.specialised = true → (M.decl cfg I n x f).bulk = (M.decl cfg I n x f).plain := by
    intro hsp
    rcases hs with hs | hs
    · show dynC f.ty (M.bulkOf cfg _ f.ty) = dynC f.ty (M.codec cfg _ f.ty)
      congr 1
      cases cfg with
      | mk fw sp =>
        simp only at hs
        subst hs
        cases f.ty <;> rfl
    · rw [hs] at hsp; cases hsp
  have e1 : (M.decl cfg I n x f).opts = f.opts := rfl
  by_cases hfx : f.opts.fixed
  · refine ⟨?_, ?_, ?_⟩ <;>
      simp only [FieldDecl.legacyC, FieldDecl.legacySkip, FieldDecl.legacySkipS, e1, if_pos hfx]
    · exact hf.round_trip
    · exact hf.skip_after
    · exact hf.skip_after
  · by_cases hsp : f.opts.specialised
    · refine ⟨?_, ?_, ?_⟩ <;>
        simp only [FieldDecl.legacyC, FieldDecl.legacySkip, FieldDecl.legacySkipS, e1, if_neg hfx, if_pos hsp]
      · exact hb.round_trip
      · rw [hbp hsp]; exact hp.skip_after
      · rw [hbp hsp]; exact hp.skipS_after
    · refine ⟨?_, ?_, ?_⟩ <;>
        simp only [FieldDecl.legacyC, FieldDecl.legacySkip, FieldDecl.legacySkipS, e1, if_neg hfx, if_neg hsp]
      · exact hp.round_trip
      · exact hp.skip_after
      · exact hp.skipS_after

theorem optimised_faithful (h32 : 32 ≤ M.bits) (hM : M.bits ≤ 64) (htrans : ∀ t, Std.TransCmp (I.cmp n t))
    (hc : ∀ i, (x i).Faithful) (f : Field K) : (M.decl cfg I n x f).optimisedC.Faithful := by
  unfold FieldDecl.optimisedC
  split
  · rename_i h
    have e : (M.decl cfg I n x f).indexed = dynC (E := I.env n x) f.ty (M.indexedOf cfg (I.env n x) f.ty) := if_pos h
    rw [e]
    exact dynC_faithful f.ty (indexedOf_faithful (E := I.env n x) h32 hM htrans hc f.ty)
  · exact plain_faithful (by omega) hM hc f

theorem body_faithful (h32 : 32 ≤ M.bits) (hM : M.bits ≤ 64) (htrans : ∀ t, Std.TransCmp (I.cmp n t))
    (hc : ∀ i, (x i).Faithful) (hist : List Entry) (hh : ValidHistory hist) : {kind : Kind} → (body : Body K kind) →
    body.Readable cfg (lastEntry hist) hist.length → (M.body cfg I n x hist body).Faithful
  | _, .struct fs, hR => by
    obtain ⟨hn, _, hsk⟩ := hR
    rw [hh.lastEntry_revision] at hn
    refine structC_faithful cfg hist hh _ ?_ ?_ ?_
    · intro ho f hf
      obtain ⟨f, hf', rfl⟩ := List.mem_map.1 hf
      exact legacy_faithful (by omega) hM hc f (hsk ho f hf')
    · intro ho f hf
      obtain ⟨f, hf', rfl⟩ := List.mem_map.1 hf
      exact optimised_faithful h32 hM htrans hc f
    · unfold DistinctFieldNames at hn
      unfold DistinctNames
      rw [List.filter_map, List.map_map]
      exact hn
  | _, .enum vs, hR => by
    obtain ⟨hA, hx, hn, hsk⟩ := hR
    rw [hh.lastEntry_revision] at hn
    have es : (vs.map (M.variant cfg I n x)).map VariantDecl.sig = vs.map Variant.sig := by
      rw [List.map_map]
      refine List.map_congr_left fun v _ => ?_
      simp only [Function.comp, variant, VariantDecl.sig, Variant.sig, List.map_map]
      rfl
    refine enumC_faithful cfg hist hh _ ⟨es ▸ hA.distinct, es ▸ hA.discs, es ▸ hA.optimised⟩ ?_ ?_ ?_
    · intro ho v hv f hf
      obtain ⟨v, hv', rfl⟩ := List.mem_map.1 hv
      obtain ⟨f, hf', rfl⟩ := List.mem_map.1 hf
      exact legacy_faithful (by omega) hM hc f (hsk ho v hv' f hf')
    · intro ho v hv f hf
      obtain ⟨v, hv', rfl⟩ := List.mem_map.1 hv
      obtain ⟨f, hf', rfl⟩ := List.mem_map.1 hf
      exact plain_faithful (by omega) hM hc f
    · intro ho v hv hex
      obtain ⟨v, hv', rfl⟩ := List.mem_map.1 hv
      have := hn ho v hv' hex
      unfold DistinctFieldNames at this
      unfold DistinctNames
      simp only [variant]
      rw [List.filter_map, List.map_map]
      exact this
  | _, .foreign x, _ => x.faithful

end

theorem program_faithful {ι : Type} [DecidableEq ι] (h32 : 32 ≤ M.bits) (hM : M.bits ≤ 64) (cfg : Cfg) (P : Program ι)
    (I : Impls P.kind) (htrans : ∀ n t, Std.TransCmp (I.cmp n t)) (hP : P.Readable cfg P.current) : ∀ (n : Nat) (i : ι),
    (M.program cfg P I n i).Faithful
  | 0, _ => ⟨fun v => Empty.elim v, fun v => Empty.elim v, fun v => Empty.elim v, fun v => Empty.elim v⟩
  | n + 1, i => by
    have hb := hP.body i
    unfold Program.entryAt Program.current at hb
    rw [List.take_length] at hb
    exact body_faithful h32 hM (htrans n) (program_faithful h32 hM cfg P I htrans hP n) (P.history i) (hP.history i)
      (P.body i) hb

end Machine

end Revision
