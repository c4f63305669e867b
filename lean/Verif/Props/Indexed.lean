import Verif.Proofs.IndexedBuild
import Verif.Props.IndexedWalk
import Verif.Proofs.Ty
import Verif.Spec.Demo

/-! # Properties of indexed collections: C39–C45

Collections are lists in iteration order.  `k`, `v`, `c` are any codecs for keys, values and elements
that round-trip (`Codec.Faithful`); every type of the crate qualifies (C01, C02).  Lengths are below
`2^56`: a Rust collection whose elements have a size holds fewer. -/

namespace Revision

/-! ### Helpers -/

theorem Codec.Faithful.inj {c : Codec α} (h : c.Faithful) {a a' : α} {b : Bytes} (ha : c.valid a)
    (ha' : c.valid a') (e : c.enc a = .ok b) (e' : c.enc a' = .ok b) : a = a' := by
  have h1 := h.round_trip a b ha e []
  rw [h.round_trip a' b ha' e' []] at h1
  injection h1 with h1; injection h1 with h1; exact h1.symm

theorem sorted_perm {α : Type} (key : α → Bytes) (l : List α) :
    (l.mergeSort fun a b => (cmpBytes (key a) (key b)).isLE).Perm l := List.mergeSort_perm _ _

theorem sorted_asc {α : Type} (key : α → Bytes) (l : List α) (hn : (l.map key).Nodup) :
    ((l.mergeSort fun a b => (cmpBytes (key a) (key b)).isLE).map key).Pairwise
      fun a b => cmpBytes a b = .lt := by
  have h2 : (l.mergeSort fun a b => (cmpBytes (key a) (key b)).isLE).Pairwise
      fun a b => (cmpBytes (key a) (key b)).isLE = true :=
    List.pairwise_mergeSort (fun a b c => btree_le_trans (cmp := cmpBytes) (key := key) a b c)
      (fun a b => btree_le_total (cmp := cmpBytes) (key := key) a b) _
  have h3 : ((l.mergeSort fun a b => (cmpBytes (key a) (key b)).isLE).map key).Nodup :=
    ((sorted_perm key l).map key).nodup_iff.2 hn
  rw [List.pairwise_map]
  refine (h2.and (List.pairwise_map.1 h3)).imp ?_
  rintro a b ⟨x, y⟩
  cases hc : cmpBytes (key a) (key b)
  · rfl
  · exact absurd (cmpBytes_eq.1 hc) y
  · rw [hc] at x; cases x

/-- Sorting by distinct keys forgets the order of the input. -/
theorem sorted_canonical {α : Type} (key : α → Bytes) {l l' : List α} (hp : l.Perm l')
    (hn : (l.map key).Nodup) :
    (l.mergeSort fun a b => (cmpBytes (key a) (key b)).isLE) =
      l'.mergeSort fun a b => (cmpBytes (key a) (key b)).isLE := by
  have hn' : (l'.map key).Nodup := (hp.map key).nodup_iff.1 hn
  refine List.Perm.eq_of_pairwise (le := fun a b => cmpBytes (key a) (key b) = .lt) ?_
    (List.pairwise_map.1 (sorted_asc key l hn)) (List.pairwise_map.1 (sorted_asc key l' hn'))
    (((sorted_perm key l).trans hp).trans (sorted_perm key l').symm)
  intro a b _ _ x y
  have := cmpBytes_lt_trans x y
  rw [cmpBytes_self] at this; cases this

/-- Distinct valid keys have distinct encodings. -/
theorem enc_nodup {c : Codec α} (h : c.Faithful) {l : List α} (hv : ∀ a ∈ l, c.valid a)
    (hn : l.Nodup) : ∀ {bs}, encEach c.enc l = .ok bs → bs.Nodup := by
  induction l with
  | nil => intro bs e; injection e with e; subst e; exact .nil
  | cons a l ih =>
    intro bs e
    obtain ⟨b, bs', rfl, hb, hbs⟩ := encEach_cons.1 e
    have hn' := List.nodup_cons.1 hn
    refine List.nodup_cons.2 ⟨?_, ih (fun a ha => hv a (by simp [ha])) hn'.2 hbs⟩
    intro hm
    obtain ⟨a', ha', e'⟩ := (encEach_mem hbs b).1 hm
    exact hn'.1 (h.inj (hv a (by simp)) (hv a' (by simp [ha'])) hb e' ▸ ha')

/-- Where there are two valid values, neither is written as no bytes. -/
theorem enc_ne_nil {c : Codec α} (h : c.Faithful) {l : List α} (hv : ∀ a ∈ l, c.valid a) (hn : l.Nodup) (h2 : 2 ≤ l.length)
    {bs : List Bytes} (hb : encEach c.enc l = .ok bs) : ∀ a ∈ l, c.enc a ≠ .ok [] := by
  intro a ha e
  obtain ⟨i, hi, rfl⟩ := List.getElem_of_mem ha
  have hl := encEach_length hb
  have other : ∃ j, ∃ hj : j < l.length, j ≠ i := by
    rcases Nat.eq_zero_or_pos i with h0 | h0
    · exact ⟨1, by omega, by omega⟩
    · exact ⟨0, by omega, by omega⟩
  obtain ⟨j, hj, hji⟩ := other
  have hbj := encEach_get hb j hj (by omega)
  have d1 := h.round_trip _ _ (hv _ (List.getElem_mem hj)) hbj []
  have d2 := h.round_trip _ _ (hv _ (List.getElem_mem hi)) e (bs[j]'(by omega))
  rw [List.append_nil] at d1
  rw [List.nil_append, d1] at d2
  exact hji ((List.getElem_inj hn).1 (Prod.mk.inj (Res.ok.inj d2)).1)

theorem serializeIndexedEntries_ok {k : κ → Res Bytes} {v : ν → Res Bytes} {l : List (κ × ν)}
    {b : Bytes} (h : serializeIndexedEntries k v l = .ok b) :
    ∃ ps l', encEach (encPair k v) l = .ok ps ∧ l.Perm l' ∧
      encEach (encPair k v) l' = .ok (ps.mergeSort fun a b => (cmpBytes a.1 b.1).isLE) ∧
      writeMapPairs (ps.mergeSort fun a b => (cmpBytes a.1 b.1).isLE) = .ok b := by
  obtain ⟨ps, h1, h2⟩ := Res.bind_eq_ok.1 h
  obtain ⟨l', hp, he⟩ := encEach_perm (List.mergeSort_perm ps _).symm h1
  exact ⟨ps, l', h1, hp, he, h2⟩

theorem serializeIndexedSet_ok {f : α → Res Bytes} {l : List α}
    {b : Bytes} (h : serializeIndexedSet f l = .ok b) :
    ∃ bs l', encEach f l = .ok bs ∧ l.Perm l' ∧
      encEach f l' = .ok (bs.mergeSort fun a b => (cmpBytes a b).isLE) ∧
      writeSeqBodies (bs.mergeSort fun a b => (cmpBytes a b).isLE) = .ok b := by
  obtain ⟨bs, h1, h2⟩ := Res.bind_eq_ok.1 h
  obtain ⟨l', hp, he⟩ := encEach_perm (List.mergeSort_perm bs _).symm h1
  exact ⟨bs, l', h1, hp, he, h2⟩

section
variable {κ ν α : Type} {k : Codec κ} {v : Codec ν} {c : Codec α}

/-! ### C39: indexed maps round-trip -/

/-- C39, `BTreeMap`: a map given by its entries in key order is read back from its encoding, and
what follows the encoding is left. -/
theorem C39_btreemap (hk : k.Faithful) (hv : v.Faithful) (cmp : κ → κ → Ordering) [Std.TransCmp cmp]
    (capK capV : Nat → Bool) (m : List (κ × ν)) (hlen : m.length < 2 ^ 56)
    (hcap : capK m.length = true ∧ capV m.length = true)
    (hvalid : ∀ e ∈ m, k.valid e.1 ∧ v.valid e.2) (hsorted : StrictAsc cmp (m.map Prod.fst))
    (b : Bytes) (h : serializeIndexedEntries k.enc v.enc m = .ok b) (t : Bytes) :
    (indexedBTreeMapC capK capV cmp k v).dec (b ++ t) = .ok (m, t) := by
  obtain ⟨ps, l', _, hp, he, hw⟩ := serializeIndexedEntries_ok h
  have hl : l'.length = m.length := hp.length_eq.symm
  have := readIndexedMap_write (mk := k.dec) (mv := v.dec) (pre := fun _ => true) (capK := capK)
    (capV := capV) (build := fun l => l.foldl (btreeInsert cmp) [])
    (fun e he b hb t => hk.round_trip _ _ (hvalid e (hp.mem_iff.2 he)).1 hb t)
    (fun e he b hb t => hv.round_trip _ _ (hvalid e (hp.mem_iff.2 he)).2 hb t)
    he hw (by omega) rfl (by rw [hl]; exact hcap.1) (by rw [hl]; exact hcap.2) t
  show readIndexedMap _ _ _ _ _ _ _ = _
  rw [this, btree_rebuild hp.symm hsorted]

/-- C39, `HashMap`: whatever order `m` iterates in, a map with exactly the entries of `m` is read
back, and what follows is left. -/
theorem C39_hashmap (hk : k.Faithful) (hv : v.Faithful) (eq : κ → κ → Bool)
    (hsym : ∀ a b, eq a b = eq b a)
    (pre capK capV : Nat → Bool) (m : List (κ × ν)) (hlen : m.length < 2 ^ 56)
    (hcap : pre m.length = true ∧ capK m.length = true ∧ capV m.length = true)
    (hvalid : ∀ e ∈ m, k.valid e.1 ∧ v.valid e.2) (hdistinct : DistinctKeys eq (m.map Prod.fst))
    (b : Bytes) (h : serializeIndexedEntries k.enc v.enc m = .ok b) (t : Bytes) :
    ∃ m', m'.Perm m ∧ (indexedHashMapC pre capK capV eq k v).dec (b ++ t) = .ok (m', t) := by
  obtain ⟨ps, l', _, hp, he, hw⟩ := serializeIndexedEntries_ok h
  have hl : l'.length = m.length := hp.length_eq.symm
  have := readIndexedMap_write (mk := k.dec) (mv := v.dec) (pre := pre) (capK := capK)
    (capV := capV) (build := fun l => l.foldl (hashInsert eq) [])
    (fun e he b hb t => hk.round_trip _ _ (hvalid e (hp.mem_iff.2 he)).1 hb t)
    (fun e he b hb t => hv.round_trip _ _ (hvalid e (hp.mem_iff.2 he)).2 hb t)
    he hw (by omega) (by rw [hl]; exact hcap.1) (by rw [hl]; exact hcap.2.1)
    (by rw [hl]; exact hcap.2.2) t
  refine ⟨l', hp.symm, ?_⟩
  show readIndexedMap _ _ _ _ _ _ _ = _
  have hd : DistinctKeys eq (l'.map Prod.fst) :=
    (List.Perm.pairwise_iff (fun {a b} (h : eq a b = false) => by rw [hsym]; exact h)
      (hp.map Prod.fst)).1 hdistinct
  have hf := hash_foldl_fix l' [] (by simpa using hd)
  rw [this, hf]; rfl

/-! ### C40: one map, one encoding -/

/-- C40: the encoding of a map does not depend on the order its entries are presented in. -/
theorem C40_map_canonical (hk : k.Faithful) (m m' : List (κ × ν)) (hperm : m.Perm m')
    (hvalid : ∀ e ∈ m, k.valid e.1) (hdistinct : (m.map Prod.fst).Nodup) (b : Bytes)
    (h : serializeIndexedEntries k.enc v.enc m = .ok b) :
    serializeIndexedEntries k.enc v.enc m' = .ok b := by
  obtain ⟨ps, h1, h2⟩ := Res.bind_eq_ok.1 h
  obtain ⟨ps', hp, he⟩ := encEach_perm' hperm h1
  have hn : (ps.map Prod.fst).Nodup := by
    refine enc_nodup hk (l := m.map Prod.fst) ?_ hdistinct (encEach_pairs h1).1
    intro a ha
    obtain ⟨e, he, rfl⟩ := List.mem_map.1 ha
    exact hvalid e he
  unfold serializeIndexedEntries
  rw [he, Res.ok_bind, ← sorted_canonical Prod.fst hp hn]
  exact h2

/-! ### C41: lookups on a serialised map -/

/-- C41: the walker over the encoding of a map with at least eight entries passes validation; it
enumerates the serialised entries in ascending byte order of the keys; looking up the bytes of a key
returns the bytes of the value the map holds under it, or nothing if the key is absent. -/
theorem C41_lookup (hk : k.Faithful) (m : List (κ × ν)) (h8 : 8 ≤ m.length)
    (hlen : m.length < 2 ^ 56) (hvalid : ∀ e ∈ m, k.valid e.1)
    (hdistinct : (m.map Prod.fst).Nodup) (hsmall : SmallPairs k.enc v.enc m)
    (hne : ∀ e ∈ m, v.enc e.2 ≠ .ok []) (b : Bytes)
    (h : serializeIndexedEntries k.enc v.enc m = .ok b) :
    ∃ (w : IndexedMapWalker) (es : List (Bytes × Bytes)),
      IndexedMapWalker.fromPayload b = .ok w ∧ w.isIndexed = true ∧ w.len = m.length ∧
      w.entries = some (.ok es) ∧ es.length = m.length ∧ Ascending (es.map Prod.fst) ∧
      (∀ kb vb, (kb, vb) ∈ es ↔ ∃ e ∈ m, k.enc e.1 = .ok kb ∧ v.enc e.2 = .ok vb) ∧
      (∀ key kb, k.valid key → k.enc key = .ok kb →
        (∀ vb, w.findValueBytes (fun x => cmpBytes x kb) = .ok (some vb) ↔
          ∃ val, (key, val) ∈ m ∧ v.enc val = .ok vb) ∧
        (w.findValueBytes (fun x => cmpBytes x kb) = .ok none ↔ key ∉ m.map Prod.fst)) := by
  obtain ⟨ps, l', h1, hp, he, hw⟩ := serializeIndexedEntries_ok h
  have hpl := encEach_length h1
  have hn : (ps.map Prod.fst).Nodup := by
    refine enc_nodup hk (l := m.map Prod.fst) ?_ hdistinct (encEach_pairs h1).1
    intro a ha
    obtain ⟨e, he, rfl⟩ := List.mem_map.1 ha
    exact hvalid e he
  have hsp := List.mergeSort_perm ps fun a b => (cmpBytes a.1 b.1).isLE
  have hasc := sorted_asc Prod.fst ps hn
  generalize hes : (ps.mergeSort fun a b => (cmpBytes a.1 b.1).isLE) = es at *
  have hmem : ∀ kb vb, (kb, vb) ∈ es ↔ ∃ e ∈ m, k.enc e.1 = .ok kb ∧ v.enc e.2 = .ok vb := by
    intro kb vb
    rw [hsp.mem_iff, encEach_mem h1]
    constructor
    · rintro ⟨e, he, x⟩; exact ⟨e, he, encPair_ok.1 x⟩
    · rintro ⟨e, he, x⟩; exact ⟨e, he, encPair_ok.2 x⟩
  have hesl : es.length = m.length := by rw [hsp.length_eq, hpl]
  have hs : ∀ p ∈ es, p.1.length < 2 ^ 32 ∧ p.2.length < 2 ^ 32 := by
    rintro ⟨kb, vb⟩ hx
    obtain ⟨e, he, x, y⟩ := (hmem kb vb).1 hx
    exact ⟨(hsmall e he).1 _ x, (hsmall e he).2 _ y⟩
  have hne' : ∀ p ∈ es, p.1 ≠ [] ∧ p.2 ≠ [] := by
    rintro ⟨kb, vb⟩ hx
    obtain ⟨e, he, x, y⟩ := (hmem kb vb).1 hx
    exact ⟨fun z => enc_ne_nil hk (List.forall_mem_map.2 hvalid) hdistinct (by rw [List.length_map]; omega)
        (encEach_pairs h1).1 e.1 (List.mem_map_of_mem he) (by rw [x]; simp only at z; rw [z]),
      fun z => hne e he (by rw [y]; simp only at z; rw [z])⟩
  obtain ⟨w, w1, w2, w3, w4, pr, w5, w6, w7⟩ :=
    walker_of_written hw (by omega) (by omega) hs hne' hasc []
  rw [List.append_nil] at w1
  refine ⟨w, es, w1, w3, by omega, w4, hesl, hasc, hmem, ?_⟩
  intro key kb hkey hkb
  have spec := searchLoop_spec w6 (fun x => cmpBytes x kb)
  have key1 : ∀ (hlen : b.length < 2 ^ 63), (∀ vb, w.findValueBytes (fun x => cmpBytes x kb) =
      .ok (some vb) ↔ (kb, vb) ∈ es) ∧
      (w.findValueBytes (fun x => cmpBytes x kb) = .ok none ↔ kb ∉ es.map Prod.fst) :=
    fun hlen => C35_accepted_key b hlen w w1 es w4 hasc kb
  have hbl : b.length < 2 ^ 63 := by
    rcases writeMapPairs_ok hw with ⟨h, _⟩ | ⟨_, os, kl, vl, ho, rfl⟩
    · omega
    · have hol := mapOffsets_length ho
      rw [mapOffsets_small hs 0 0 (by decide) (by decide)] at ho
      split at ho
      case isFalse => cases ho
      case isTrue hfit =>
      have := writeVarint_length es.length
      simp only [List.length_cons, List.length_append, leBytes_length, pairTable_length] at hfit ⊢
      omega
  obtain ⟨k1, k2⟩ := key1 hbl
  refine ⟨fun vb => ?_, ?_⟩
  · rw [k1, hmem]
    constructor
    · rintro ⟨e, he, x, y⟩
      have : e.1 = key := hk.inj (hvalid e he) hkey x hkb
      exact ⟨e.2, by rw [← this]; exact he, y⟩
    · rintro ⟨val, hm, y⟩; exact ⟨_, hm, hkb, y⟩
  · rw [k2]
    constructor
    · intro hno hm
      obtain ⟨e, he, rfl⟩ := List.mem_map.1 hm
      have hx : encEach (encPair k.enc v.enc) m = .ok ps := h1
      obtain ⟨i, hi, rfl⟩ := List.getElem_of_mem he
      have := encEach_get hx i hi (by omega)
      have := encPair_ok.1 this
      refine hno (List.mem_map.2 ⟨ps[i]'(by omega), hsp.mem_iff.2 (List.getElem_mem _), ?_⟩)
      rw [hkb] at this; exact (Res.ok.inj this.1).symm
    · intro hno hm
      obtain ⟨⟨kb', vb⟩, hx, rfl⟩ := List.mem_map.1 hm
      obtain ⟨e, he, x, _⟩ := (hmem kb' vb).1 hx
      have : e.1 = key := hk.inj (hvalid e he) hkey x hkb
      exact hno (List.mem_map.2 ⟨e, he, this⟩)

/-- C41: the same for arbitrary probes: the bytes looked for need not be the bytes of any key. -/
theorem C41_probe (hk : k.Faithful) (m : List (κ × ν)) (h8 : 8 ≤ m.length)
    (hlen : m.length < 2 ^ 56) (hvalid : ∀ e ∈ m, k.valid e.1)
    (hdistinct : (m.map Prod.fst).Nodup) (hsmall : SmallPairs k.enc v.enc m)
    (hne : ∀ e ∈ m, v.enc e.2 ≠ .ok []) (b : Bytes)
    (h : serializeIndexedEntries k.enc v.enc m = .ok b) :
    ∃ w : IndexedMapWalker, IndexedMapWalker.fromPayload b = .ok w ∧ w.isIndexed = true ∧
      ∀ kb, (∀ vb, w.findValueBytes (fun x => cmpBytes x kb) = .ok (some vb) ↔
          ∃ e ∈ m, k.enc e.1 = .ok kb ∧ v.enc e.2 = .ok vb) ∧
        (w.findValueBytes (fun x => cmpBytes x kb) = .ok none ↔ ∀ e ∈ m, k.enc e.1 ≠ .ok kb) := by
  obtain ⟨w, es, w1, w2, -, w4, -, w6, w7, -⟩ := C41_lookup hk m h8 hlen hvalid hdistinct hsmall hne b h
  obtain ⟨ps, l', h1, hp, he, hw⟩ := serializeIndexedEntries_ok h
  have hbl : b.length < 2 ^ 63 := by
    have hpl := encEach_length h1
    have hsp := List.mergeSort_perm ps fun a b => (cmpBytes a.1 b.1).isLE
    generalize (ps.mergeSort fun a b => (cmpBytes a.1 b.1).isLE) = es at *
    have hesl : es.length = m.length := by rw [hsp.length_eq, hpl]
    have hs : ∀ p ∈ es, p.1.length < 2 ^ 32 ∧ p.2.length < 2 ^ 32 := by
      rintro ⟨kb, vb⟩ hx
      rw [hsp.mem_iff, encEach_mem h1] at hx
      obtain ⟨e, he, x⟩ := hx
      have x := encPair_ok.1 x
      exact ⟨(hsmall e he).1 _ x.1, (hsmall e he).2 _ x.2⟩
    rcases writeMapPairs_ok hw with ⟨h, _⟩ | ⟨_, os, kl, vl, ho, rfl⟩
    · omega
    · have hol := mapOffsets_length ho
      rw [mapOffsets_small hs 0 0 (by decide) (by decide)] at ho
      split at ho
      case isFalse => cases ho
      case isTrue hfit =>
      have := writeVarint_length es.length
      simp only [List.length_cons, List.length_append, leBytes_length, pairTable_length] at hfit ⊢
      omega
  refine ⟨w, w1, w2, fun kb => ?_⟩
  obtain ⟨k1, k2⟩ := C35_accepted_key b hbl w w1 es w4 w6 kb
  refine ⟨fun vb => by rw [k1, w7], ?_⟩
  rw [k2]
  constructor
  · intro hno e hem hek
    obtain ⟨i, hi, rfl⟩ := List.getElem_of_mem hem
    have := encPair_ok.1 (encEach_get h1 i hi (by rw [encEach_length h1]; exact hi))
    exact hno (List.mem_map.2 ⟨_, (w7 _ _).2 ⟨_, hem, this⟩, Res.ok.inj (this.1.symm.trans hek)⟩)
  · intro hno hm
    obtain ⟨⟨kb', vb⟩, hx, rfl⟩ := List.mem_map.1 hm
    obtain ⟨e, he, x, _⟩ := (w7 kb' vb).1 hx
    exact hno e he x

/-! ### C42: indexed sequences -/

/-- C42: a sequence is read back from its encoding, and what follows is left. -/
theorem C42_round_trip (hc : c.Faithful) (cap : Nat → Bool) (l : List α) (hlen : l.length < 2 ^ 56)
    (hcap : cap l.length = true) (hvalid : ∀ a ∈ l, c.valid a) (b : Bytes)
    (h : serializeIndexedSeq c.enc l = .ok b) (t : Bytes) :
    (indexedSeqC cap c).dec (b ++ t) = .ok (l, t) := by
  obtain ⟨bs, h1, h2⟩ := Res.bind_eq_ok.1 h
  exact readIndexedSeq_write (fun a ha b hb t => hc.round_trip _ _ (hvalid a ha) hb t) h1 h2
    (by omega) hcap t

/-- C42: over the encoding of a sequence of at least eight elements, `element_bytes(i)` is the
encoding of element `i`; past the end it is an error.  Validation accepts the encoding if every
element but the last takes at least one byte. -/
theorem C42_random_access (l : List α) (h8 : 8 ≤ l.length) (hlen : l.length < 2 ^ 56)
    (hsmall : SmallEach c.enc l) (b : Bytes) (h : serializeIndexedSeq c.enc l = .ok b) :
    ∃ w : IndexedSeqWalker, IndexedSeqWalker.fromPayloadUnvalidated b = .ok w ∧
      w.isIndexed = true ∧ w.len = l.length ∧
      (∀ i (hi : i < l.length), ∃ e, c.enc l[i] = .ok e ∧ w.elementBytes i = .ok e) ∧
      (∀ i, l.length ≤ i → w.elementBytes i = .err .deserialize) ∧
      ((∀ i (_ : i + 1 < l.length), c.enc l[i] ≠ .ok []) →
        IndexedSeqWalker.fromPayload b = .ok w) := by
  obtain ⟨bs, h1, h2⟩ := Res.bind_eq_ok.1 h
  have hl := encEach_length h1
  have hs : ∀ b ∈ bs, b.length < 2 ^ 32 := by
    intro x hx
    obtain ⟨a, ha, e⟩ := (encEach_mem h1 x).1 hx
    exact hsmall a ha x e
  obtain ⟨w1, w2, w3⟩ := seqWalker_of_written h2 (by omega) (by omega) hs
  refine ⟨_, w1, rfl, hl, ?_, ?_, ?_⟩
  · intro i hi
    exact ⟨bs[i], encEach_get h1 i hi (by omega), w2 i (by omega)⟩
  · intro i hi
    exact elementBytes_out (by simp only; omega)
  · intro hne
    refine w3 ?_
    intro i hi e
    exact hne i (by omega) (by rw [encEach_get h1 i (by omega) (by omega), e])

/-- C42: a shorter sequence is written without a table, and its walker refuses random access. -/
theorem C42_short (l : List α) (h8 : l.length < 8) (b : Bytes)
    (h : serializeIndexedSeq c.enc l = .ok b) :
    ∃ w : IndexedSeqWalker, IndexedSeqWalker.fromPayload b = .ok w ∧ w.isIndexed = false ∧
      w.len = l.length ∧ (w.isEmpty = true ↔ l = []) ∧ ∀ i, w.elementBytes i = .err .deserialize := by
  obtain ⟨bs, h1, h2⟩ := Res.bind_eq_ok.1 h
  have hl := encEach_length h1
  rcases writeSeqBodies_ok h2 with ⟨_, rfl⟩ | ⟨h, _⟩
  · refine ⟨⟨(0 :: (writeVarint bs.length ++ bs.flatten)).drop (1 + (writeVarint bs.length).length),
      none, bs.length⟩, ?_, rfl, hl, ?_, fun i => rfl⟩
    rotate_left
    · unfold IndexedSeqWalker.isEmpty
      rw [beq_iff_eq]
      simp only
      rw [hl, List.length_eq_zero_iff]
    unfold IndexedSeqWalker.fromPayload IndexedSeqWalker.fromPayloadInner
    simp only
    rw [sliceVarint_write _ (by omega)]
    simp only [Res.ok_bind]
    rw [if_pos (by decide)]
  · omega

/-- C41: a map of fewer than eight entries is written without a table; its walker reports how many
entries there are and whether there are none, and refuses enumeration and lookups. -/
theorem C41_short (m : List (κ × ν)) (h8 : m.length < 8) (b : Bytes)
    (h : serializeIndexedEntries k.enc v.enc m = .ok b) :
    ∃ w : IndexedMapWalker, IndexedMapWalker.fromPayload b = .ok w ∧ w.isIndexed = false ∧
      w.len = m.length ∧ (w.isEmpty = true ↔ m = []) ∧ w.entries = none ∧
      (∀ pred, w.findValueBytes pred = .err .deserialize) ∧
      ∀ hint pred, w.findWithHint hint pred = .err .deserialize := by
  obtain ⟨ps, h1, h2⟩ := Res.bind_eq_ok.1 h
  have hl := encEach_length h1
  have hs := List.length_mergeSort (le := fun a b => (cmpBytes a.1 b.1).isLE) ps
  generalize (ps.mergeSort fun a b => (cmpBytes a.1 b.1).isLE) = qs at *
  unfold writeMapPairs at h2
  rw [if_pos (show qs.length < offsetTableMinLen by rw [hs, hl]; exact h8)] at h2
  injection h2 with h2; subst h2
  refine ⟨⟨(0 :: (writeVarint qs.length ++ (qs.map fun p => p.1 ++ p.2).flatten)).drop
      (1 + (writeVarint qs.length).length), none, qs.length⟩, ?_, rfl, by simp only; omega, ?_, rfl,
      fun _ => rfl, fun _ _ => rfl⟩
  · unfold IndexedMapWalker.fromPayload IndexedMapWalker.fromPayloadInner
    simp only
    rw [sliceVarint_write _ (by omega)]
    simp only [Res.ok_bind]
    rw [if_pos (by decide)]
  · unfold IndexedMapWalker.isEmpty
    rw [beq_iff_eq]
    simp only
    rw [hs, hl, List.length_eq_zero_iff]

/-- Two entries; no entry at all. -/
example : ∃ w, IndexedMapWalker.fromPayload [0, 2, 1, 9, 2, 8] = .ok w ∧ w.len = 2 ∧
    w.isEmpty = false := ⟨_, rfl, rfl, rfl⟩

example : ∃ w, IndexedMapWalker.fromPayload [0, 0] = .ok w ∧ w.isEmpty = true := ⟨_, rfl, rfl⟩

/-! ### C43: indexed sets -/

/-- C43: the encoding of a set does not depend on the order its elements are presented in. -/
theorem C43_canonical (hc : c.Faithful) (s s' : List α) (hperm : s.Perm s')
    (hvalid : ∀ a ∈ s, c.valid a) (hdistinct : s.Nodup) (b : Bytes)
    (h : serializeIndexedSet c.enc s = .ok b) : serializeIndexedSet c.enc s' = .ok b := by
  obtain ⟨bs, h1, h2⟩ := Res.bind_eq_ok.1 h
  obtain ⟨bs', hp, he⟩ := encEach_perm' hperm h1
  have hn := enc_nodup hc hvalid hdistinct h1
  unfold serializeIndexedSet
  have e := sorted_canonical id hp (by simpa using hn)
  simp only [id] at e
  rw [he, Res.ok_bind, ← e]
  exact h2

/-- C43, `BTreeSet`: a set given in order is read back. -/
theorem C43_btreeset (hc : c.Faithful) (cmp : α → α → Ordering) [Std.TransCmp cmp]
    (cap : Nat → Bool) (s : List α) (hlen : s.length < 2 ^ 56) (hcap : cap s.length = true)
    (hvalid : ∀ a ∈ s, c.valid a) (hsorted : StrictAsc cmp s) (b : Bytes)
    (h : serializeIndexedSet c.enc s = .ok b) (t : Bytes) :
    (indexedBTreeSetC cap cmp c).dec (b ++ t) = .ok (s, t) := by
  obtain ⟨bs, l', _, hp, he, hw⟩ := serializeIndexedSet_ok h
  have hl : l'.length = s.length := hp.length_eq.symm
  have := readIndexedSeq_write (m := c.dec) (cap := cap)
    (fun a ha b hb t => hc.round_trip _ _ (hvalid a (hp.mem_iff.2 ha)) hb t) he hw (by omega)
    (by rw [hl]; exact hcap) t
  show (do let l ← readIndexedSeq cap c.dec; pure (btreeBuild cmp id l) : Rd (List α)) _ = _
  rw [Rd.bind_of_ok this, btreeSet_rebuild hp.symm hsorted]; rfl

/-- C43, `HashSet`: a set with the same elements is read back. -/
theorem C43_hashset (hc : c.Faithful) (eq : α → α → Bool) (hsym : ∀ a b, eq a b = eq b a)
    (cap : Nat → Bool) (s : List α) (hlen : s.length < 2 ^ 56) (hcap : cap s.length = true)
    (hvalid : ∀ a ∈ s, c.valid a) (hdistinct : DistinctKeys eq s) (b : Bytes)
    (h : serializeIndexedSet c.enc s = .ok b) (t : Bytes) :
    ∃ s', s'.Perm s ∧ (indexedHashSetC cap eq c).dec (b ++ t) = .ok (s', t) := by
  obtain ⟨bs, l', _, hp, he, hw⟩ := serializeIndexedSet_ok h
  have hl : l'.length = s.length := hp.length_eq.symm
  have := readIndexedSeq_write (m := c.dec) (cap := cap)
    (fun a ha b hb t => hc.round_trip _ _ (hvalid a (hp.mem_iff.2 ha)) hb t) he hw (by omega)
    (by rw [hl]; exact hcap) t
  refine ⟨l', hp.symm, ?_⟩
  show (do let l ← readIndexedSeq cap c.dec; pure (l.foldl (hashSetInsert eq) []) : Rd (List α)) _ = _
  have hd : DistinctKeys eq l' :=
    (List.Perm.pairwise_iff (fun {a b} (h : eq a b = false) => by rw [hsym]; exact h) hp).1 hdistinct
  rw [Rd.bind_of_ok this]
  have hf := hashSet_foldl_fix l' [] (by simpa using hd)
  rw [hf]; rfl

/-- C43: a set of fewer than eight elements is written without a table; its walker reports how many
elements there are and whether there are none, and refuses random access. -/
theorem C43_short (s : List α) (h8 : s.length < 8) (b : Bytes)
    (h : serializeIndexedSet c.enc s = .ok b) :
    ∃ w : IndexedSeqWalker, IndexedSeqWalker.fromPayload b = .ok w ∧ w.isIndexed = false ∧
      w.len = s.length ∧ (w.isEmpty = true ↔ s = []) ∧ ∀ i, w.elementBytes i = .err .deserialize := by
  obtain ⟨bs, l', h1, hp, he, hw⟩ := serializeIndexedSet_ok h
  have hl := hp.length_eq
  obtain ⟨w, w1, w2, w3, w4, w5⟩ := C42_short (c := c) l' (by omega) b
    (by unfold serializeIndexedSeq; rw [he]; exact hw)
  refine ⟨w, w1, w2, by omega, w4.trans ?_, w5⟩
  rw [← List.length_eq_zero_iff, ← List.length_eq_zero_iff, hl]

/-- C43: the walker over the encoding of a set of at least eight elements presents the encodings of
exactly its elements, in strictly ascending byte order. -/
theorem C43_sorted (hc : c.Faithful) (s : List α) (h8 : 8 ≤ s.length) (hlen : s.length < 2 ^ 56)
    (hvalid : ∀ a ∈ s, c.valid a) (hdistinct : s.Nodup) (hsmall : SmallEach c.enc s)
    (b : Bytes) (h : serializeIndexedSet c.enc s = .ok b) :
    ∃ (w : IndexedSeqWalker) (es : List Bytes), IndexedSeqWalker.fromPayload b = .ok w ∧
      w.isIndexed = true ∧ w.len = s.length ∧ es.length = s.length ∧ Ascending es ∧
      (∀ i (hi : i < es.length), w.elementBytes i = .ok es[i]) ∧
      (∀ e, e ∈ es ↔ ∃ a ∈ s, c.enc a = .ok e) := by
  obtain ⟨bs, l', h1, hp, he, hw⟩ := serializeIndexedSet_ok h
  have hl := encEach_length h1
  have hn := enc_nodup hc hvalid hdistinct h1
  have hasc := sorted_asc id bs (by simpa using hn)
  have hsp := List.mergeSort_perm bs fun a b => (cmpBytes a b).isLE
  rw [List.map_id] at hasc
  simp only [id] at hasc
  generalize hes : (bs.mergeSort fun a b => (cmpBytes a b).isLE) = es at *
  have hmem : ∀ e, e ∈ es ↔ ∃ a ∈ s, c.enc a = .ok e := by
    intro e; rw [hsp.mem_iff, encEach_mem h1]
  have hesl : es.length = s.length := by rw [hsp.length_eq, hl]
  have hs : ∀ b ∈ es, b.length < 2 ^ 32 := by
    intro x hx
    obtain ⟨a, ha, e⟩ := (hmem x).1 hx
    exact hsmall a ha x e
  obtain ⟨w1, w2, w3⟩ := seqWalker_of_written hw (by omega) (by omega) hs
  refine ⟨_, es, w3 ?_, rfl, hesl, hesl, hasc, w2, hmem⟩
  intro i hi e0
  obtain ⟨a, ha, e⟩ := (hmem es[i]).1 (List.getElem_mem _)
  exact enc_ne_nil hc hvalid hdistinct (by omega) h1 a ha (by rw [e, e0])

/-! ### C44: skipping -/

/-- C44, maps: skipping the encoding of a map followed by anything leaves what follows. -/
theorem C44_map (hk : k.Faithful) (hv : v.Faithful) (m : List (κ × ν)) (hlen : m.length < 2 ^ 56)
    (hvalid : ∀ e ∈ m, k.valid e.1 ∧ v.valid e.2) (hsmall : SmallPairs k.enc v.enc m) (b : Bytes)
    (h : serializeIndexedEntries k.enc v.enc m = .ok b) (t : Bytes) :
    skipIndexedMap k.skip v.skip (b ++ t) = .ok ((), t) := by
  obtain ⟨ps, l', h1, hp, he, hw⟩ := serializeIndexedEntries_ok h
  have hl : l'.length = m.length := hp.length_eq.symm
  refine skipIndexedMap_write
    (fun e he b hb t => hk.skip_after _ _ (hvalid e (hp.mem_iff.2 he)).1 hb t)
    (fun e he b hb t => hv.skip_after _ _ (hvalid e (hp.mem_iff.2 he)).2 hb t)
    he hw (by omega) ?_ t
  intro p hx
  obtain ⟨e, hm, x⟩ := (encEach_mem he p).1 hx
  have := encPair_ok.1 x
  exact ⟨(hsmall e (hp.mem_iff.2 hm)).1 _ this.1, (hsmall e (hp.mem_iff.2 hm)).2 _ this.2⟩

/-- C44, sequences. -/
theorem C44_seq (hc : c.Faithful) (l : List α) (hlen : l.length < 2 ^ 56)
    (hvalid : ∀ a ∈ l, c.valid a) (hsmall : SmallEach c.enc l) (b : Bytes)
    (h : serializeIndexedSeq c.enc l = .ok b) (t : Bytes) :
    skipIndexedSeq c.skip (b ++ t) = .ok ((), t) := by
  obtain ⟨bs, h1, h2⟩ := Res.bind_eq_ok.1 h
  refine skipIndexedSeq_write (fun a ha b hb t => hc.skip_after _ _ (hvalid a ha) hb t) h1 h2
    (by omega) ?_ t
  intro x hx
  obtain ⟨a, ha, e⟩ := (encEach_mem h1 x).1 hx
  exact hsmall a ha x e

/-- C44, sets. -/
theorem C44_set (hc : c.Faithful) (s : List α) (hlen : s.length < 2 ^ 56)
    (hvalid : ∀ a ∈ s, c.valid a) (hsmall : SmallEach c.enc s) (b : Bytes)
    (h : serializeIndexedSet c.enc s = .ok b) (t : Bytes) :
    skipIndexedSeq c.skip (b ++ t) = .ok ((), t) := by
  obtain ⟨bs, l', h1, hp, he, hw⟩ := serializeIndexedSet_ok h
  have hl : l'.length = s.length := hp.length_eq.symm
  refine skipIndexedSeq_write
    (fun a ha b hb t => hc.skip_after _ _ (hvalid a (hp.mem_iff.2 ha)) hb t) he hw (by omega) ?_ t
  intro x hx
  obtain ⟨a, ha, e⟩ := (encEach_mem he x).1 hx
  exact hsmall a (hp.mem_iff.2 ha) x e

/-! ### C45: regions beyond 32-bit offsets -/

/-- C45 for elements below 4 GiB each: a sequence of at least eight elements is encoded if its body
fits 32-bit offsets and refused with a serialisation error otherwise.  What is missing from C45:
elements of 4 GiB or more, see `C45_seq_false`. -/
theorem C45_seq_partial (l : List α) (h8 : 8 ≤ l.length) (hsmall : SmallEach c.enc l)
    (bodies : List Bytes) (hb : encEach c.enc l = .ok bodies) :
    (bodies.flatten.length < 2 ^ 32 → ∃ b, serializeIndexedSeq c.enc l = .ok b) ∧
    (2 ^ 32 ≤ bodies.flatten.length → serializeIndexedSeq c.enc l = .err .serialize) := by
  have hl := encEach_length hb
  have hs : ∀ b ∈ bodies, b.length < 2 ^ 32 := by
    intro x hx
    obtain ⟨a, ha, e⟩ := (encEach_mem hb x).1 hx
    exact hsmall a ha x e
  unfold serializeIndexedSeq writeSeqBodies
  rw [hb, Res.ok_bind, if_neg (by simp only [offsetTableMinLen]; omega),
    seqOffsets_small hs 0 (by decide), Nat.zero_add]
  constructor
  · intro h; rw [if_pos h]; exact ⟨_, rfl⟩
  · intro h; rw [if_neg (by omega)]; rfl

theorem flatten_perm_length {l l' : List Bytes} (h : l.Perm l') :
    l.flatten.length = l'.flatten.length := by
  simp only [List.length_flatten]; exact (h.map _).sum_nat

/-- C45 for keys and values below 4 GiB each: a map of at least eight entries is encoded if its key
region and its value region fit 32-bit offsets, and refused otherwise.  What is missing from C45: keys
or values of 4 GiB or more. -/
theorem C45_map_partial (m : List (κ × ν)) (h8 : 8 ≤ m.length) (hsmall : SmallPairs k.enc v.enc m)
    (ks vs : List Bytes) (hks : encEach k.enc (m.map Prod.fst) = .ok ks)
    (hvs : encEach v.enc (m.map Prod.snd) = .ok vs) :
    (ks.flatten.length < 2 ^ 32 ∧ vs.flatten.length < 2 ^ 32 →
      ∃ b, serializeIndexedEntries k.enc v.enc m = .ok b) ∧
    (2 ^ 32 ≤ ks.flatten.length ∨ 2 ^ 32 ≤ vs.flatten.length →
      serializeIndexedEntries k.enc v.enc m = .err .serialize) := by
  have hex : ∃ ps, encEach (encPair k.enc v.enc) m = .ok ps := by
    refine encEach_ok ?_
    intro e he
    obtain ⟨i, hi, rfl⟩ := List.getElem_of_mem he
    have l1 := encEach_length hks
    have l2 := encEach_length hvs
    rw [List.length_map] at l1 l2
    have e1 := encEach_get hks i (by simpa using hi) (by omega)
    have e2 := encEach_get hvs i (by simpa using hi) (by omega)
    rw [List.getElem_map] at e1 e2
    exact ⟨(ks[i]'(by omega), vs[i]'(by omega)), encPair_ok.2 ⟨e1, e2⟩⟩
  obtain ⟨ps, hps⟩ := hex
  obtain ⟨p1, p2, _⟩ := encEach_pairs hps
  rw [hks] at p1; rw [hvs] at p2
  injection p1 with p1; injection p2 with p2
  subst p1; subst p2
  have hl := encEach_length hps
  have hsp := List.mergeSort_perm ps fun a b => (cmpBytes a.1 b.1).isLE
  have f1 := flatten_perm_length (hsp.map Prod.fst)
  have f2 := flatten_perm_length (hsp.map Prod.snd)
  unfold serializeIndexedEntries
  rw [hps, Res.ok_bind]
  generalize (ps.mergeSort fun a b => (cmpBytes a.1 b.1).isLE) = es at *
  have hs : ∀ p ∈ es, p.1.length < 2 ^ 32 ∧ p.2.length < 2 ^ 32 := by
    intro p hx
    obtain ⟨e, hm, x⟩ := (encEach_mem hps p).1 (hsp.mem_iff.1 hx)
    have := encPair_ok.1 x
    exact ⟨(hsmall e hm).1 _ this.1, (hsmall e hm).2 _ this.2⟩
  have hel := hsp.length_eq
  unfold writeMapPairs
  rw [if_neg (by simp only [offsetTableMinLen]; omega),
    mapOffsets_small hs 0 0 (by decide) (by decide), Nat.zero_add, Nat.zero_add, f1, f2]
  constructor
  · intro h; rw [if_pos h]; exact ⟨_, rfl⟩
  · intro h; rw [if_neg (by omega)]; rfl

end

/-- Eight bodies of exactly 4 GiB: every offset comes out as zero. -/
theorem seqOffsets_wrap (bs : List Bytes) (h : ∀ b ∈ bs, b.length = 2 ^ 32) :
    seqOffsets 0 bs = .ok (List.replicate bs.length 0, 0) := by
  induction bs with
  | nil => rfl
  | cons b bs ih =>
    have hb : b.length % 2 ^ 32 = 0 := by rw [h b (by simp)]
    rw [seqOffsets, hb, if_pos (by decide), Nat.add_zero, ih fun x hx => h x (by simp [hx])]
    rfl

/-- C45 fails: eight `Vec<u8>`s of `2^32 - 5` bytes each, 4 GiB each when serialised, are
accepted although their total length does not fit 32-bit offsets; all offsets are written as zero,
and the walker, validation being off, returns the empty slice as the first element. -/
theorem C45_seq_false (cap : Nat → Bool) :
    ∃ l : List (List (BitVec 8)), ∃ bodies b w,
      encEach (bulkC ⟨false, true⟩ cap 8 1).enc l = .ok bodies ∧ 8 ≤ l.length ∧
      2 ^ 32 ≤ bodies.flatten.length ∧
      serializeIndexedSeq (bulkC ⟨false, true⟩ cap 8 1).enc l = .ok b ∧
      IndexedSeqWalker.fromPayloadUnvalidated b = .ok w ∧ w.elementBytes 0 = .ok [] ∧
      (bulkC ⟨false, true⟩ cap 8 1).enc (l.headD []) ≠ .ok [] := by
  obtain ⟨N, hN⟩ : ∃ N, N = 2 ^ 32 - 5 := ⟨_, rfl⟩
  obtain ⟨x, hx⟩ : ∃ x, x = List.replicate N (0 : BitVec 8) := ⟨_, rfl⟩
  have hxl : x.length = N := by rw [hx, List.length_replicate]
  obtain ⟨e, he⟩ : ∃ e, e = encLen ⟨false, true⟩ N ++ x.flatMap fun v => leBytes 1 v.toNat := ⟨_, rfl⟩
  have henc : (bulkC ⟨false, true⟩ cap 8 1).enc x = .ok e := by rw [he, ← hxl]; rfl
  have hfl : ∀ l : List (BitVec 8), (l.flatMap fun v => leBytes 1 v.toNat).length = l.length := by
    intro l
    induction l with
    | nil => rfl
    | cons a l ih => rw [List.flatMap_cons, List.length_append, ih, leBytes_length, List.length_cons]; omega
  have hel : e.length = 2 ^ 32 := by
    have h1 : (encLen ⟨false, true⟩ N).length = 5 := by rw [hN]; decide +kernel
    rw [he, List.length_append, hfl, hxl, h1, hN]
  have hbs : encEach (bulkC ⟨false, true⟩ cap 8 1).enc (List.replicate 8 x) = .ok (List.replicate 8 e) := by
    have : ∀ n, encEach (bulkC ⟨false, true⟩ cap 8 1).enc (List.replicate n x) = .ok (List.replicate n e) := by
      intro n
      induction n with
      | zero => rfl
      | succ n ih => exact encEach_cons.2 ⟨_, _, rfl, henc, ih⟩
    exact this 8
  have hall : ∀ b ∈ List.replicate 8 e, b.length = 2 ^ 32 := by
    intro b hb; rw [(List.mem_replicate.1 hb).2]; exact hel
  have hoff := seqOffsets_wrap _ hall
  rw [List.length_replicate] at hoff
  generalize hbody : (List.replicate 8 e).flatten = body at *
  have hbl : body.length = 2 ^ 35 := by
    rw [← hbody]
    simp only [List.length_flatten, List.map_replicate, hel]
    decide
  have hw : writeSeqBodies (List.replicate 8 e) = .ok (1 :: (writeVarint 8 ++
      (((List.replicate 8 0).map (leBytes 4)).flatten ++ body))) := by
    unfold writeSeqBodies
    rw [List.length_replicate, if_neg (by decide), hoff, hbody]; rfl
  refine ⟨List.replicate 8 x, _, 1 :: (writeVarint 8 ++
      (((List.replicate 8 0).map (leBytes 4)).flatten ++ body)), ⟨body, some (((List.replicate 8 0).map (leBytes 4)).flatten), 8⟩,
    hbs, by rw [List.length_replicate]; decide, ?_, ?_, ?_, ?_, ?_⟩
  · rw [hbody, hbl]; decide
  · unfold serializeIndexedSeq; rw [hbs, Res.ok_bind]; exact hw
  · have e1 : writeVarint 8 = [8] := by decide
    have e2 : ((List.replicate 8 0).map (leBytes 4)).flatten = List.replicate 32 0 := by decide
    have s1 : sliceVarint (8 :: (List.replicate 32 0 ++ body)) = .ok (8, 1) := by
      simp only [sliceVarint]; rw [if_pos (by decide)]; rfl
    rw [e1, e2]
    unfold IndexedSeqWalker.fromPayloadUnvalidated IndexedSeqWalker.fromPayloadInner
    simp only [List.singleton_append]
    rw [s1]
    simp only [Res.ok_bind]
    have c1 : checkedMul 8 4 .deserialize = .ok 32 := rfl
    have c2 : addU (1 + 1) 32 = .ok 34 := rfl
    have hPl : (1 :: 8 :: (List.replicate 32 0 ++ body) : Bytes).length = 34 + 2 ^ 35 := by
      simp only [List.length_cons, List.length_append, List.length_replicate, hbl]
    rw [if_neg (by decide), c1]
    simp only [Res.ok_bind]
    rw [c2]
    simp only [Res.ok_bind]
    have s2 : slice (1 :: 8 :: (List.replicate 32 0 ++ body) : Bytes) 2 34 = List.replicate 32 0 :=
      slice_append_mid [1, 8] (List.replicate 32 0) body rfl (by simp)
    rw [if_neg (by omega), sliceR_ok (by omega) (by omega), s2]
    simp only [Res.ok_bind, Bool.false_eq_true, if_false]
    have d : List.drop 34 (1 :: 8 :: (List.replicate 32 0 ++ body) : Bytes) = body := by
      have : (1 :: 8 :: (List.replicate 32 0 ++ body) : Bytes) =
        (1 :: 8 :: List.replicate 32 0) ++ body := rfl
      rw [this]; exact List.drop_left' (by simp)
    rw [d]
  · rw [elementBytes_eq (offsets := ((List.replicate 8 0).map (leBytes 4)).flatten) rfl rfl
      (Nat.zero_lt_succ 7)]
    have e0 : seqOff (((List.replicate 8 0).map (leBytes 4)).flatten) body 8 0 = 0 := by
      unfold seqOff; rw [if_pos (by decide)]; decide
    have e1 : seqOff (((List.replicate 8 0).map (leBytes 4)).flatten) body 8 (0 + 1) = 0 := by
      unfold seqOff; rw [if_pos (by decide)]; decide
    simp only
    rw [e0, e1, sliceR_ok (by omega) (by omega), slice_self]
  · have : (List.replicate 8 x).headD [] = x := rfl
    rw [this, henc]
    intro h
    have : e = [] := Res.ok.inj h
    rw [this] at hel; simp at hel

/-! ### The hypotheses can be met -/

theorem intC_faithful (cfg : Cfg) (k : IntTy) : (intC cfg k).Faithful :=
  (intC_lawful cfg k).faithful (intC_checks cfg k)

/-- Ten entries, presented out of order. -/
def demoIndexed : List (BitVec 8 × BitVec 8) :=
  [(5, 50), (200, 1), (3, 30), (4, 40), (9, 90), (6, 60), (7, 70), (1, 10), (8, 80), (2, 20)]

theorem demoIndexed_small : SmallPairs (intC ⟨false, true⟩ .u8).enc (intC ⟨false, true⟩ .u8).enc demoIndexed := by
  have h : ∀ (x : BitVec 8) b, (intC ⟨false, true⟩ .u8).enc x = .ok b → b.length < 2 ^ 32 := by
    intro x b h; rw [← Res.ok.inj h]; show (1 : Nat) < 2 ^ 32; decide
  exact fun e _ => ⟨h e.1, h e.2⟩

theorem demoIndexed_enc : ∃ b, serializeIndexedEntries (intC ⟨false, true⟩ .u8).enc (intC ⟨false, true⟩ .u8).enc
    demoIndexed = .ok b := by
  refine (C45_map_partial demoIndexed (by decide) demoIndexed_small
    ([[5], [200], [3], [4], [9], [6], [7], [1], [8], [2]])
    ([[50], [1], [30], [40], [90], [60], [70], [10], [80], [20]]) rfl rfl).1 (by decide)

/-- C41, C40, C44 and C39 on the ten entries. -/
example : ∃ (b : Bytes) (w : IndexedMapWalker),
    serializeIndexedEntries (intC ⟨false, true⟩ .u8).enc (intC ⟨false, true⟩ .u8).enc demoIndexed = .ok b ∧
    serializeIndexedEntries (intC ⟨false, true⟩ .u8).enc (intC ⟨false, true⟩ .u8).enc demoIndexed.reverse = .ok b ∧
    IndexedMapWalker.fromPayload b = .ok w ∧
    w.findValueBytes (fun x => cmpBytes x [200]) = .ok (some [1]) ∧
    w.findValueBytes (fun x => cmpBytes x [10]) = .ok none ∧
    skipIndexedMap (intC ⟨false, true⟩ .u8).skip (intC ⟨false, true⟩ .u8).skip (b ++ [77]) = .ok ((), [77]) ∧
    ∃ m', m'.Perm demoIndexed ∧
      (indexedHashMapC (fun _ => true) (fun _ => true) (fun _ => true) (· == ·) (intC ⟨false, true⟩ .u8)
        (intC ⟨false, true⟩ .u8)).dec (b ++ [77]) = .ok (m', [77]) := by
  obtain ⟨b, hb⟩ := demoIndexed_enc
  have hf := intC_faithful ⟨false, true⟩ .u8
  have hne : ∀ e ∈ demoIndexed, (intC ⟨false, true⟩ .u8).enc e.1 ≠ .ok [] ∧ (intC ⟨false, true⟩ .u8).enc e.2 ≠ .ok [] := by
    have h : ∀ x : BitVec 8, (intC ⟨false, true⟩ .u8).enc x ≠ .ok [] := by
      intro x h
      have := Res.ok.inj h
      exact absurd this (List.cons_ne_nil _ _)
    exact fun e _ => ⟨h e.1, h e.2⟩
  obtain ⟨w, es, h1, _, _, _, _, _, _, hl⟩ := C41_lookup (v := intC ⟨false, true⟩ .u8) hf demoIndexed
    (by decide) (by decide) (fun _ _ => trivial) (by decide) demoIndexed_small (fun e he => (hne e he).2) b hb
  refine ⟨b, w, hb, C40_map_canonical hf _ _ (List.reverse_perm _).symm (fun _ _ => trivial)
    (by decide) b hb, h1, ?_, ?_, ?_, ?_⟩
  · exact ((hl (200 : BitVec 8) [200] trivial rfl).1 [1]).2 ⟨(1 : BitVec 8), by decide, rfl⟩
  · exact (hl (10 : BitVec 8) [10] trivial rfl).2.2 (by decide)
  · exact C44_map hf hf demoIndexed (by decide) (fun _ _ => ⟨trivial, trivial⟩) demoIndexed_small b hb _
  · exact C39_hashmap hf hf (· == ·) (fun a b => Bool.beq_comm) _ _ _ demoIndexed
      (by decide) ⟨rfl, rfl, rfl⟩ (fun _ _ => ⟨trivial, trivial⟩) (by unfold DistinctKeys; decide) b hb _

/-- The probe may be any bytes, even no key's. -/
example : ∃ (b : Bytes) (w : IndexedMapWalker),
    serializeIndexedEntries (intC ⟨false, true⟩ .u8).enc (intC ⟨false, true⟩ .u8).enc demoIndexed = .ok b ∧
    IndexedMapWalker.fromPayload b = .ok w ∧
    w.findValueBytes (fun x => cmpBytes x [200]) = .ok (some [1]) ∧
    w.findValueBytes (fun x => cmpBytes x [200, 0]) = .ok none := by
  obtain ⟨b, hb⟩ := demoIndexed_enc
  have hne : ∀ e ∈ demoIndexed, (intC ⟨false, true⟩ .u8).enc e.1 ≠ .ok [] ∧ (intC ⟨false, true⟩ .u8).enc e.2 ≠ .ok [] := by
    have h : ∀ x : BitVec 8, (intC ⟨false, true⟩ .u8).enc x ≠ .ok [] := fun x h =>
      absurd (Res.ok.inj h) (List.cons_ne_nil _ _)
    exact fun e _ => ⟨h e.1, h e.2⟩
  obtain ⟨w, h1, -, hl⟩ := C41_probe (v := intC ⟨false, true⟩ .u8) (intC_faithful ⟨false, true⟩ .u8) demoIndexed
    (by decide) (by decide) (fun _ _ => trivial) (by decide) demoIndexed_small (fun e he => (hne e he).2) b hb
  refine ⟨b, w, hb, h1, ((hl [200]).1 [1]).2 ⟨((200 : BitVec 8), (1 : BitVec 8)), by decide, rfl, rfl⟩,
    (hl [200, 0]).2.2 fun e _ h => ?_⟩
  have := congrArg List.length (Res.ok.inj h)
  cases this

/-- C39 for a sorted map of eight entries. -/
example : ∃ b, serializeIndexedEntries (intC ⟨false, true⟩ .u8).enc (intC ⟨false, true⟩ .u8).enc
      ((List.range 8).map fun i => (BitVec.ofNat 8 i, BitVec.ofNat 8 (i * i))) = .ok b ∧
    (indexedBTreeMapC (fun _ => true) (fun _ => true) (compareOn BitVec.toNat) (intC ⟨false, true⟩ .u8)
      (intC ⟨false, true⟩ .u8)).dec (b ++ [1]) =
      .ok ((List.range 8).map fun i => (BitVec.ofNat 8 i, BitVec.ofNat 8 (i * i)), [1]) := by
  have : Std.TransCmp (compareOn (BitVec.toNat (w := 8))) := comap_trans BitVec.toNat compare
  have hs : SmallPairs (intC ⟨false, true⟩ .u8).enc (intC ⟨false, true⟩ .u8).enc
      ((List.range 8).map fun i => (BitVec.ofNat 8 i, BitVec.ofNat 8 (i * i))) := by
    have h : ∀ (x : BitVec 8) b, (intC ⟨false, true⟩ .u8).enc x = .ok b → b.length < 2 ^ 32 := by
      intro x b h; rw [← Res.ok.inj h]; show (1 : Nat) < 2 ^ 32; decide
    exact fun e _ => ⟨h e.1, h e.2⟩
  obtain ⟨b, hb⟩ := (C45_map_partial _ (by decide) hs
    ([[0], [1], [2], [3], [4], [5], [6], [7]])
    ([[0], [1], [4], [9], [16], [25], [36], [49]]) rfl rfl).1 (by decide)
  exact ⟨b, hb, C39_btreemap (intC_faithful ⟨false, true⟩ .u8) (intC_faithful ⟨false, true⟩ .u8) _ _ _ _ (by decide)
    ⟨rfl, rfl⟩ (fun _ _ => ⟨trivial, trivial⟩) (by unfold StrictAsc; decide) b hb [1]⟩

/-- Nine `u16`s, some one byte long and some three. -/
def demoSeq : List (BitVec 16) := [1, 300, 2, 65535, 0, 7, 251, 250, 9]

theorem demoSeq_bodies : encEach (intC ⟨false, true⟩ .u16).enc demoSeq =
    .ok [[1], [251, 44, 1], [2], [251, 255, 255], [0], [7], [251, 251, 0], [250], [9]] := by
  decide +kernel

theorem demoSeq_small : SmallEach (intC ⟨false, true⟩ .u16).enc demoSeq := by
  intro a ha b h
  have hb := (encEach_mem demoSeq_bodies b).2 ⟨a, ha, h⟩
  have : ∀ b ∈ ([[1], [251, 44, 1], [2], [251, 255, 255], [0], [7], [251, 251, 0], [250], [9]] :
      List Bytes), b.length < 2 ^ 32 := by decide
  exact this b hb

theorem demoSeq_ne : ∀ a ∈ demoSeq, (intC ⟨false, true⟩ .u16).enc a ≠ .ok [] := by
  intro a ha h
  have hb := (encEach_mem demoSeq_bodies []).2 ⟨a, ha, h⟩
  revert hb; decide

/-- C42 and C44 on the nine elements. -/
example : ∃ (b : Bytes) (w : IndexedSeqWalker), serializeIndexedSeq (intC ⟨false, true⟩ .u16).enc demoSeq = .ok b ∧
    (indexedSeqC (fun _ => true) (intC ⟨false, true⟩ .u16)).dec (b ++ [5]) = .ok (demoSeq, [5]) ∧
    IndexedSeqWalker.fromPayload b = .ok w ∧ w.elementBytes 1 = .ok [251, 44, 1] ∧
    w.elementBytes 9 = .err .deserialize ∧
    skipIndexedSeq (intC ⟨false, true⟩ .u16).skip (b ++ [5]) = .ok ((), [5]) := by
  have hs := demoSeq_small
  have hb := (C45_seq_partial demoSeq (by decide) hs _ demoSeq_bodies).1 (by decide)
  obtain ⟨b, hb⟩ := hb
  obtain ⟨w, w1, w2, w3, w4, w5, w6⟩ := C42_random_access demoSeq (by decide) (by decide) hs b hb
  refine ⟨b, w, hb, C42_round_trip (intC_faithful ⟨false, true⟩ .u16) _ _ (by decide) rfl (fun _ _ => trivial)
    b hb _, w6 (fun i _ => demoSeq_ne _ (List.getElem_mem _)), ?_, w5 9 (by decide), C44_seq (intC_faithful ⟨false, true⟩ .u16) _ (by decide)
    (fun _ _ => trivial) hs b hb _⟩
  obtain ⟨e, e1, e2⟩ := w4 1 (by decide)
  rw [e2, ← e1]; decide

/-- C42 for a short sequence. -/
example : ∃ b w, serializeIndexedSeq (intC ⟨false, true⟩ .u16).enc [1, 2, 300] = .ok b ∧
    IndexedSeqWalker.fromPayload b = .ok w ∧ w.elementBytes 0 = .err .deserialize := by
  obtain ⟨w, h1, _, _, _, h4⟩ := C42_short (c := intC ⟨false, true⟩ .u16) [1, 2, 300] (by decide) _ rfl
  exact ⟨_, w, rfl, h1, h4 0⟩

/-- C43 and C44 on a set of nine elements, presented out of order. -/
example : ∃ b w, serializeIndexedSet (intC ⟨false, true⟩ .u16).enc demoSeq = .ok b ∧
    serializeIndexedSet (intC ⟨false, true⟩ .u16).enc demoSeq.reverse = .ok b ∧
    IndexedSeqWalker.fromPayload b = .ok w ∧ w.isIndexed = true ∧
    (∃ s', s'.Perm demoSeq ∧ (indexedHashSetC (fun _ => true) (· == ·) (intC ⟨false, true⟩ .u16)).dec (b ++ [4]) =
      .ok (s', [4])) ∧
    skipIndexedSeq (intC ⟨false, true⟩ .u16).skip (b ++ [4]) = .ok ((), [4]) := by
  have hs := demoSeq_small
  have hb : ∃ b, serializeIndexedSet (intC ⟨false, true⟩ .u16).enc demoSeq = .ok b := by
    unfold serializeIndexedSet
    have hb := demoSeq_bodies
    generalize hbs : ([[1], [251, 44, 1], [2], [251, 255, 255], [0], [7], [251, 251, 0], [250], [9]] :
      List Bytes) = bs at hb
    have hsp := List.mergeSort_perm bs fun a b => (cmpBytes a b).isLE
    rw [hb, Res.ok_bind]
    have f := flatten_perm_length hsp
    generalize bs.mergeSort (fun a b => (cmpBytes a b).isLE) = es at *
    have hl := hsp.length_eq
    have hsm : ∀ b ∈ es, b.length < 2 ^ 32 := by
      intro b hb
      have : ∀ b ∈ bs, b.length < 2 ^ 32 := by rw [← hbs]; decide
      exact this b (hsp.mem_iff.1 hb)
    unfold writeSeqBodies
    have h9 : es.length = 9 := by rw [hl, ← hbs]; rfl
    have h17 : es.flatten.length < 2 ^ 32 := by rw [f, ← hbs]; decide
    rw [if_neg (by rw [h9]; decide), seqOffsets_small hsm 0 (by decide), if_pos (by omega)]
    exact ⟨_, rfl⟩
  obtain ⟨b, hb⟩ := hb
  obtain ⟨w, es, w1, w2, _⟩ := C43_sorted (intC_faithful ⟨false, true⟩ .u16) demoSeq (by decide) (by decide)
    (fun _ _ => trivial) (by decide) hs b hb
  exact ⟨b, w, hb, C43_canonical (intC_faithful ⟨false, true⟩ .u16) _ _ (List.reverse_perm _).symm
    (fun _ _ => trivial) (by decide) b hb, w1, w2,
    C43_hashset (intC_faithful ⟨false, true⟩ .u16) (· == ·) (fun a b => Bool.beq_comm) _ _ (by decide) rfl
      (fun _ _ => trivial) (by unfold DistinctKeys; decide) b hb _,
    C44_set (intC_faithful ⟨false, true⟩ .u16) _ (by decide) (fun _ _ => trivial) hs b hb _⟩

/-- C43 for a `BTreeSet`. -/
example : ∃ b, serializeIndexedSet (intC ⟨false, true⟩ .u16).enc [3, 9, 300] = .ok b ∧
    (indexedBTreeSetC (fun _ => true) (compareOn BitVec.toNat) (intC ⟨false, true⟩ .u16)).dec (b ++ [4]) =
      .ok ([3, 9, 300], [4]) := by
  have : Std.TransCmp (compareOn (BitVec.toNat (w := 16))) := comap_trans BitVec.toNat compare
  have hb : ∃ b, serializeIndexedSet (intC ⟨false, true⟩ .u16).enc [3, 9, 300] = .ok b := by
    unfold serializeIndexedSet writeSeqBodies
    have e : encEach (intC ⟨false, true⟩ .u16).enc [3, 9, 300] = .ok [[3], [9], [251, 44, 1]] := by rfl
    rw [e, Res.ok_bind, if_pos (by rw [(List.mergeSort_perm _ _).length_eq]; decide)]
    exact ⟨_, rfl⟩
  obtain ⟨b, hb⟩ := hb
  exact ⟨b, hb, C43_btreeset (intC_faithful ⟨false, true⟩ .u16) _ _ _ (by decide) rfl (fun _ _ => trivial)
    (by unfold StrictAsc; decide) b hb [4]⟩

end Revision
