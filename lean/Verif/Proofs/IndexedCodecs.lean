import Verif.Props.Indexed

/-! The indexed codecs are faithful, so derived types can use them for their fields. -/

namespace Revision

variable {κ ν α : Type} {k : Codec κ} {v : Codec ν} {c : Codec α}

theorem Rd.discard_ok {m : Rd α} {s r : Bytes} {a : α} (h : m s = .ok (a, r)) :
    m.discard s = .ok ((), r) := by
  unfold Rd.discard
  rw [Rd.bind_of_ok h]; rfl

theorem indexedBTreeMapC_faithful (hk : k.Faithful) (hv : v.Faithful) (cmp : κ → κ → Ordering)
    [Std.TransCmp cmp] (capK capV : Nat → Bool) : (indexedBTreeMapC capK capV cmp k v).Faithful where
  round_trip := by
    rintro m b ⟨h1, h2, h3, h4, _, h6⟩ hb t
    exact C39_btreemap hk hv cmp capK capV m h1 ⟨h2, h3⟩ h4 h6 b hb t
  skip_after := by
    rintro m b ⟨h1, _, _, h4, h5, _⟩ hb t
    exact C44_map hk hv m h1 h4 h5 b hb t
  skipS_after := by
    rintro m b ⟨h1, _, _, h4, h5, _⟩ hb t
    exact C44_map hk hv m h1 h4 h5 b hb t
  check_after := by
    rintro m b ⟨h1, h2, h3, h4, _, h6⟩ hb t
    exact Rd.discard_ok (C39_btreemap hk hv cmp capK capV m h1 ⟨h2, h3⟩ h4 h6 b hb t)

/-- In byte order of its keys a map is written as it stands. -/
theorem sorted_pairs {m : List (κ × ν)} {ps}
    (hs : m.Pairwise fun a b => ∀ x y, k.enc a.1 = .ok x → k.enc b.1 = .ok y →
      (cmpBytes x y).isLE = true)
    (h : encEach (encPair k.enc v.enc) m = .ok ps) :
    (ps.mergeSort fun a b => (cmpBytes a.1 b.1).isLE) = ps := by
  refine List.mergeSort_of_pairwise ?_
  rw [List.pairwise_iff_getElem] at hs ⊢
  have hl := encEach_length h
  intro i j hi hj hij
  have e1 := encPair_ok.1 (encEach_get h i (by omega) hi)
  have e2 := encPair_ok.1 (encEach_get h j (by omega) hj)
  exact hs i j (by omega) (by omega) hij _ _ e1.1 e2.1

theorem indexedHashMapC_round (hk : k.Faithful) (hv : v.Faithful) (eq : κ → κ → Bool)
    (pre capK capV : Nat → Bool) (m : List (κ × ν)) (b : Bytes)
    (hm : (indexedHashMapC pre capK capV eq k v).valid m)
    (hb : serializeIndexedEntries k.enc v.enc m = .ok b) (t : Bytes) :
    (indexedHashMapC pre capK capV eq k v).dec (b ++ t) = .ok (m, t) := by
  obtain ⟨h1, h2, h3, h4, h5, _, h7, h8⟩ := hm
  obtain ⟨ps, e1, e2⟩ := Res.bind_eq_ok.1 hb
  rw [sorted_pairs h8 e1] at e2
  have := readIndexedMap_write (mk := k.dec) (mv := v.dec) (pre := pre) (capK := capK)
    (capV := capV) (build := fun l => l.foldl (hashInsert eq) [])
    (fun e he b hb t => hk.round_trip _ _ (h5 e he).1 hb t)
    (fun e he b hb t => hv.round_trip _ _ (h5 e he).2 hb t) e1 e2 (by omega) h2 h3 h4 t
  show readIndexedMap _ _ _ _ _ _ _ = _
  have hf := hash_foldl_fix m [] (by simpa using h7)
  rw [this, hf]; rfl

theorem indexedHashMapC_faithful (hk : k.Faithful) (hv : v.Faithful) (eq : κ → κ → Bool)
    (pre capK capV : Nat → Bool) : (indexedHashMapC pre capK capV eq k v).Faithful where
  round_trip m b hm hb t := indexedHashMapC_round hk hv eq pre capK capV m b hm hb t
  skip_after := by
    rintro m b ⟨h1, _, _, _, h5, h6, _⟩ hb t
    exact C44_map hk hv m h1 h5 h6 b hb t
  skipS_after := by
    rintro m b ⟨h1, _, _, _, h5, h6, _⟩ hb t
    exact C44_map hk hv m h1 h5 h6 b hb t
  check_after m b hm hb t :=
    Rd.discard_ok (indexedHashMapC_round hk hv eq pre capK capV m b hm hb t)

theorem indexedSeqC_faithful (hc : c.Faithful) (cap : Nat → Bool) : (indexedSeqC cap c).Faithful where
  round_trip := by
    rintro l b ⟨h1, h2, h3, _⟩ hb t
    exact C42_round_trip hc cap l h1 h2 h3 b hb t
  skip_after := by
    rintro l b ⟨h1, _, h3, h4⟩ hb t
    exact C44_seq hc l h1 h3 h4 b hb t
  skipS_after := by
    rintro l b ⟨h1, _, h3, h4⟩ hb t
    exact C44_seq hc l h1 h3 h4 b hb t
  check_after := by
    rintro l b ⟨h1, h2, h3, _⟩ hb t
    exact Rd.discard_ok (C42_round_trip hc cap l h1 h2 h3 b hb t)

theorem indexedBTreeSetC_faithful (hc : c.Faithful) (cmp : α → α → Ordering) [Std.TransCmp cmp]
    (cap : Nat → Bool) : (indexedBTreeSetC cap cmp c).Faithful where
  round_trip := by
    rintro l b ⟨h1, h2, h3, _, h5⟩ hb t
    exact C43_btreeset hc cmp cap l h1 h2 h3 h5 b hb t
  skip_after := by
    rintro l b ⟨h1, _, h3, h4, _⟩ hb t
    exact C44_set hc l h1 h3 h4 b hb t
  skipS_after := by
    rintro l b ⟨h1, _, h3, h4, _⟩ hb t
    exact C44_set hc l h1 h3 h4 b hb t
  check_after := by
    rintro l b ⟨h1, h2, h3, _, h5⟩ hb t
    obtain ⟨bs, l', _, hp, he, hw⟩ := serializeIndexedSet_ok hb
    have hl : l'.length = l.length := hp.length_eq.symm
    exact Rd.discard_ok (readIndexedSeq_write (m := c.dec) (cap := cap)
      (fun a ha b hb t => hc.round_trip _ _ (h3 a (hp.mem_iff.2 ha)) hb t) he hw (by omega)
      (by rw [hl]; exact h2) t)

theorem sorted_bodies {l : List α} {bs}
    (hs : l.Pairwise fun a b => ∀ x y, c.enc a = .ok x → c.enc b = .ok y →
      (cmpBytes x y).isLE = true)
    (h : encEach c.enc l = .ok bs) : (bs.mergeSort fun a b => (cmpBytes a b).isLE) = bs := by
  refine List.mergeSort_of_pairwise ?_
  rw [List.pairwise_iff_getElem] at hs ⊢
  have hl := encEach_length h
  intro i j hi hj hij
  exact hs i j (by omega) (by omega) hij _ _ (encEach_get h i (by omega) hi)
    (encEach_get h j (by omega) hj)

theorem indexedHashSetC_faithful (hc : c.Faithful) (eq : α → α → Bool) (cap : Nat → Bool) :
    (indexedHashSetC cap eq c).Faithful := by
  have key : ∀ (l : List α) (b : Bytes), (indexedHashSetC cap eq c).valid l →
      serializeIndexedSet c.enc l = .ok b → ∀ t, readIndexedSeq cap c.dec (b ++ t) = .ok (l, t) := by
    rintro l b ⟨h1, h2, h3, _, _, h6⟩ hb t
    obtain ⟨bs, e1, e2⟩ := Res.bind_eq_ok.1 hb
    rw [sorted_bodies h6 e1] at e2
    exact readIndexedSeq_write (fun a ha b hb t => hc.round_trip _ _ (h3 a ha) hb t) e1 e2 (by omega)
      h2 t
  refine ⟨?_, ?_, ?_, ?_⟩
  · intro l b hl hb t
    show (do let l ← readIndexedSeq cap c.dec; pure (l.foldl (hashSetInsert eq) []) : Rd (List α)) _ = _
    rw [Rd.bind_of_ok (key l b hl hb t)]
    have hf := hashSet_foldl_fix l [] (by simpa using hl.2.2.2.2.1)
    rw [hf]; rfl
  · rintro l b ⟨h1, _, h3, h4, _⟩ hb t
    exact C44_set hc l h1 h3 h4 b hb t
  · rintro l b ⟨h1, _, h3, h4, _⟩ hb t
    exact C44_set hc l h1 h3 h4 b hb t
  · intro l b hl hb t
    exact Rd.discard_ok (key l b hl hb t)

end Revision
