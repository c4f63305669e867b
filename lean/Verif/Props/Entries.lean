import Verif.Proofs.Entries
import Verif.Proofs.Ty
import Verif.Spec.Demo

/-!
# Indexed containers read from arbitrary bytes (C85)
-/

namespace Revision

/-- C85: whatever bytes an indexed `BTreeMap` is decoded from, in either layout, in any order of the
entries, with repeated keys and with any contents of the offset table, the map is strictly sorted and
gives each key the value of its last occurrence on the wire. -/
theorem C85_btree_map {cmp : κ → κ → Ordering} [Std.TransCmp cmp] (capK capV : Nat → Bool)
    (k : Codec κ) (v : Codec ν) (s rest : Bytes) (m : List (κ × ν))
    (h : (indexedBTreeMapC capK capV cmp k v).dec s = .ok (m, rest)) :
    ∃ wire, MapOnWire k.dec v.dec wire s rest ∧
      m.Pairwise (fun a b => cmp a.1 b.1 = .lt) ∧
      ∀ key, (m.find? fun e => cmp e.1 key == .eq).map Prod.snd =
        (wire.reverse.find? fun e => cmp e.1 key == .eq).map Prod.snd := by
  obtain ⟨wire, hw, rfl⟩ := readIndexedMap_onWire h
  refine ⟨wire, hw, ?_, fun key => ?_⟩
  · exact List.pairwise_map.1 (btree_foldl_strict wire [] (by simp [StrictAsc]))
  · simpa using btree_foldl_find wire key [] (by simp [StrictAsc])

/-- C85: the same for `HashMap`. -/
theorem C85_hash_map {eq : κ → κ → Bool} (hsymm : ∀ a b, eq a b = eq b a)
    (htrans : ∀ a b c, eq a b = true → eq b c = true → eq a c = true) (pre capK capV : Nat → Bool)
    (k : Codec κ) (v : Codec ν) (s rest : Bytes) (m : List (κ × ν))
    (h : (indexedHashMapC pre capK capV eq k v).dec s = .ok (m, rest)) :
    ∃ wire, MapOnWire k.dec v.dec wire s rest ∧
      m.Pairwise (fun a b => eq a.1 b.1 = false) ∧
      ∀ key, (m.find? fun e => eq e.1 key).map Prod.snd =
        (wire.reverse.find? fun e => eq e.1 key).map Prod.snd := by
  obtain ⟨wire, hw, rfl⟩ := readIndexedMap_onWire h
  refine ⟨wire, hw, ?_, fun key => ?_⟩
  · exact List.pairwise_map.1 (hash_foldl_distinct wire [] (by simp [DistinctKeys]))
  · simpa using hash_foldl_find hsymm htrans wire key []

/-- C85: an indexed `Vec` is the elements on the wire in their order. -/
theorem C85_seq (cap : Nat → Bool) (c : Codec α) (s rest : Bytes) (l : List α)
    (h : (indexedSeqC cap c).dec s = .ok (l, rest)) : SeqOnWire c.dec l s rest :=
  readIndexedSeq_onWire h

/-- C85: an indexed `BTreeSet` is strictly sorted and has the elements on the wire, up to equality. -/
theorem C85_btree_set {cmp : α → α → Ordering} [Std.TransCmp cmp] (cap : Nat → Bool)
    (c : Codec α) (s rest : Bytes) (m : List α)
    (h : (indexedBTreeSetC cap cmp c).dec s = .ok (m, rest)) :
    ∃ wire, SeqOnWire c.dec wire s rest ∧ m.Pairwise (fun a b => cmp a b = .lt) ∧
      (∀ x ∈ m, x ∈ wire) ∧ ∀ x ∈ wire, ∃ y ∈ m, cmp y x = .eq := by
  obtain ⟨wire, s', h1, h2⟩ := Rd.bind_ok.1 h
  have h2 : Res.ok (btreeBuild cmp id wire, s') = .ok (m, rest) := h2
  simp only [Res.ok.injEq, Prod.mk.injEq] at h2
  obtain ⟨rfl, rfl⟩ := h2
  refine ⟨wire, readIndexedSeq_onWire h1, ?_, fun x hx => btreeBuild_mem _ _ hx, fun x hx => ?_⟩
  · have := btreeBuild_strict cmp id wire
    simpa [StrictAsc] using this
  · have hf := btreeBuild_find cmp id wire x
    have hx' : x ∈ wire.filter (fun a => cmp (id a) x == .eq) := by
      simp [hx, Std.ReflCmp.compare_self (cmp := cmp)]
    cases hg : (wire.filter (fun a => cmp (id a) x == .eq)).getLast? with
    | none =>
      rw [List.getLast?_eq_none_iff] at hg
      rw [hg] at hx'
      simp at hx'
    | some y =>
      rw [hg] at hf
      exact ⟨y, List.mem_of_find?_eq_some hf, by simpa using List.find?_some hf⟩

/-- C85: an indexed `HashSet` has no equal elements and has the elements on the wire, up to equality. -/
theorem C85_hash_set {eq : α → α → Bool} (hrefl : ∀ a, eq a a = true) (cap : Nat → Bool)
    (c : Codec α) (s rest : Bytes) (m : List α)
    (h : (indexedHashSetC cap eq c).dec s = .ok (m, rest)) :
    ∃ wire, SeqOnWire c.dec wire s rest ∧ m.Pairwise (fun a b => eq a b = false) ∧
      (∀ x ∈ m, x ∈ wire) ∧ ∀ x ∈ wire, ∃ y ∈ m, eq y x = true := by
  obtain ⟨wire, s', h1, h2⟩ := Rd.bind_ok.1 h
  have h2 : Res.ok (wire.foldl (hashSetInsert eq) [], s') = .ok (m, rest) := h2
  simp only [Res.ok.injEq, Prod.mk.injEq] at h2
  obtain ⟨rfl, rfl⟩ := h2
  refine ⟨wire, readIndexedSeq_onWire h1, hashSet_foldl_inv wire [] (by simp [DistinctKeys]), ?_, ?_⟩
  · intro x hx
    simpa using hashSet_foldl_mem wire [] x hx
  · intro x hx
    exact hashSet_foldl_has hrefl wire [] x (.inr hx)

/-- C85: entries on the wire are accepted by every map type, if memory is available. -/
theorem C85_accepted_map (cmp : κ → κ → Ordering) (eq : κ → κ → Bool)
    (k : Codec κ) (v : Codec ν) (s rest : Bytes) (hs : s.length < 2 ^ 64) (wire : List (κ × ν))
    (h : MapOnWire k.dec v.dec wire s rest) :
    (∃ m, (indexedBTreeMapC (fun _ => true) (fun _ => true) cmp k v).dec s = .ok (m, rest)) ∧
    (∃ m, (indexedHashMapC (fun _ => true) (fun _ => true) (fun _ => true) eq k v).dec s = .ok (m, rest)) :=
  ⟨⟨_, readIndexedMap_of_onWire (fun _ => ⟨rfl, rfl, rfl⟩) _ hs h⟩,
    ⟨_, readIndexedMap_of_onWire (fun _ => ⟨rfl, rfl, rfl⟩) _ hs h⟩⟩

/-- C85: elements on the wire are accepted by every sequence and set type, if memory is available. -/
theorem C85_accepted_seq (cmp : α → α → Ordering) (eq : α → α → Bool)
    (c : Codec α) (s rest : Bytes) (hs : s.length < 2 ^ 64) (wire : List α)
    (h : SeqOnWire c.dec wire s rest) :
    (indexedSeqC (fun _ => true) c).dec s = .ok (wire, rest) ∧
    (∃ m, (indexedBTreeSetC (fun _ => true) cmp c).dec s = .ok (m, rest)) ∧
    (∃ m, (indexedHashSetC (fun _ => true) eq c).dec s = .ok (m, rest)) := by
  have hr := readIndexedSeq_of_onWire (cap := fun _ => true) (fun _ => rfl) hs h
  refine ⟨hr, ⟨btreeBuild cmp id wire, ?_⟩, ⟨wire.foldl (hashSetInsert eq) [], ?_⟩⟩
  · exact (Rd.bind_of_ok hr).trans rfl
  · exact (Rd.bind_of_ok hr).trans rfl

/-- Keys 9, 2, 9 in the plain layout: the second value of 9 wins. -/
example : (indexedBTreeMapC (fun _ => true) (fun _ => true) compare (intC .default .u8) (intC .default .u8)
      |>.dec [0, 3, 9, 1, 2, 5, 9, 4, 77] : Res (List (BitVec 8 × BitVec 8) × Bytes)) =
    .ok ([(2, 5), (9, 4)], [77]) := by
  rfl

/-- The same keys behind a table of arbitrary contents. -/
example : (indexedHashMapC (fun _ => true) (fun _ => true) (fun _ => true) (· == ·) (intC .default .u8)
      (intC .default .u8) |>.dec ([1, 2] ++ List.replicate 24 255 ++ [9, 9, 1, 4, 77]) :
      Res (List (BitVec 8 × BitVec 8) × Bytes)) =
    .ok ([(9, 4)], [77]) := by
  rfl

end Revision
