import Verif.Proofs.Indexed

/-! # Lemmas on replacing one part of an indexed collection -/

namespace Revision

variable {α β κ ν : Type} {b b' : Bytes}

/-- The encodings of items, with one of them replaced. -/
theorem encEach_splice {f : α → Res β} {x x' : α} {r : List α} {R : β → β → Prop} (h : ∀ y, f x = .ok y → ∃ y', f x' = .ok y' ∧ R y y') :
    ∀ {l : List α} {bs : List β}, encEach f (l ++ x :: r) = .ok bs →
      ∃ bl y y' br, bs = bl ++ y :: br ∧ R y y' ∧ encEach f (l ++ x' :: r) = .ok (bl ++ y' :: br)
  | [], _, hb => by
    obtain ⟨y, br, rfl, h1, h2⟩ := encEach_cons.1 hb
    obtain ⟨y', h', hR⟩ := h y h1
    exact ⟨[], y, y', br, rfl, hR, encEach_cons.2 ⟨_, _, rfl, h', h2⟩⟩
  | a :: l, _, hb => by
    obtain ⟨z, bs, rfl, h1, h2⟩ := encEach_cons.1 hb
    obtain ⟨bl, y, y', br, rfl, hR, h'⟩ := encEach_splice h h2
    exact ⟨z :: bl, y, y', br, rfl, hR, encEach_cons.2 ⟨_, _, rfl, h1, h'⟩⟩

/-- Offsets depend on the sizes alone. -/
theorem seqOffsets_splice {x y : Bytes} (h : x.length = y.length) (br : List Bytes) :
    ∀ (bl : List Bytes) (o : Nat), seqOffsets o (bl ++ x :: br) = seqOffsets o (bl ++ y :: br)
  | [], o => by simp only [List.nil_append, seqOffsets, h]
  | a :: bl, o => by simp only [List.cons_append, seqOffsets, seqOffsets_splice h br bl]

theorem mapOffsets_splice {k x y : Bytes} (h : x.length = y.length) (br : List (Bytes × Bytes)) :
    ∀ (bl : List (Bytes × Bytes)) (o o' : Nat), mapOffsets o o' (bl ++ (k, x) :: br) = mapOffsets o o' (bl ++ (k, y) :: br)
  | [], o, o' => by simp only [List.nil_append, mapOffsets, h]
  | (a, a') :: bl, o, o' => by simp only [List.cons_append, mapOffsets, mapOffsets_splice h br bl]

theorem writeSeqBodies_splice (hlen : b.length = b'.length) (bl : List Bytes) (p q : Bytes) (br : List Bytes) {o : Bytes}
    (h : writeSeqBodies (bl ++ (p ++ b ++ q) :: br) = .ok o) :
    ∃ p' q', o = p' ++ b ++ q' ∧ writeSeqBodies (bl ++ (p ++ b' ++ q) :: br) = .ok (p' ++ b' ++ q') := by
  have hl : (bl ++ (p ++ b ++ q) :: br).length = (bl ++ (p ++ b' ++ q) :: br).length := by simp
  have hz : (p ++ b ++ q).length = (p ++ b' ++ q).length := by simp [hlen]
  unfold writeSeqBodies
  rcases writeSeqBodies_ok h with ⟨h8, rfl⟩ | ⟨h8, os, last, ho, rfl⟩
  · rw [hl] at h8 ⊢
    refine ⟨0 :: (writeVarint (bl ++ (p ++ b' ++ q) :: br).length ++ (bl.flatten ++ p)), q ++ br.flatten, by simp, ?_⟩
    rw [if_pos (show _ < offsetTableMinLen from h8)]
    simp
  · rw [hl] at h8 ⊢
    rw [seqOffsets_splice hz] at ho
    refine ⟨1 :: (writeVarint (bl ++ (p ++ b' ++ q) :: br).length ++ (tbl os ++ (bl.flatten ++ p))), q ++ br.flatten, by simp, ?_⟩
    rw [if_neg (show ¬ _ < offsetTableMinLen from Nat.not_lt.2 h8), ho]
    show Res.ok _ = Res.ok _
    simp [tbl]

theorem writeMapPairs_splice (hlen : b.length = b'.length) (bl : List (Bytes × Bytes)) (k p q : Bytes) (br : List (Bytes × Bytes))
    {o : Bytes} (h : writeMapPairs (bl ++ (k, p ++ b ++ q) :: br) = .ok o) :
    ∃ p' q', o = p' ++ b ++ q' ∧ writeMapPairs (bl ++ (k, p ++ b' ++ q) :: br) = .ok (p' ++ b' ++ q') := by
  have hl : (bl ++ (k, p ++ b ++ q) :: br).length = (bl ++ (k, p ++ b' ++ q) :: br).length := by simp
  have hz : (p ++ b ++ q).length = (p ++ b' ++ q).length := by simp [hlen]
  unfold writeMapPairs
  rcases writeMapPairs_ok h with ⟨h8, rfl⟩ | ⟨h8, os, kl, vl, ho, rfl⟩
  · rw [hl] at h8 ⊢
    refine ⟨0 :: (writeVarint (bl ++ (k, p ++ b' ++ q) :: br).length ++ ((bl.map fun p => p.1 ++ p.2).flatten ++ (k ++ p))),
      q ++ (br.map fun p => p.1 ++ p.2).flatten, by simp, ?_⟩
    rw [if_pos (show _ < offsetTableMinLen from h8)]
    simp
  · rw [hl] at h8 ⊢
    rw [mapOffsets_splice hz] at ho
    refine ⟨1 :: (writeVarint (bl ++ (k, p ++ b' ++ q) :: br).length ++ ((os.map fun o => leBytes 4 o.1 ++ leBytes 4 o.2).flatten ++
      (leBytes 4 kl ++ (leBytes 4 vl ++ (((bl ++ (k, p ++ b' ++ q) :: br).map Prod.fst).flatten ++ ((bl.map Prod.snd).flatten ++ p)))))),
      q ++ (br.map Prod.snd).flatten, by simp, ?_⟩
    rw [if_neg (show ¬ _ < offsetTableMinLen from Nat.not_lt.2 h8), ho]
    show Res.ok _ = Res.ok _
    simp

/-- Sorting by keys moves an entry to a place that does not depend on its value. -/
theorem sort_splice (r : Bytes → Bytes → Bool) (bl : List (Bytes × Bytes)) (k x y : Bytes) (br : List (Bytes × Bytes)) :
    ∃ cl cr, (bl ++ (k, x) :: br).mergeSort (fun a b => r a.1 b.1) = cl ++ (k, x) :: cr ∧
      (bl ++ (k, y) :: br).mergeSort (fun a b => r a.1 b.1) = cl ++ (k, y) :: cr := by
  let tag : Bytes × Bytes → (Bytes × Bytes) × Bool := fun e => (e, false)
  let f : (Bytes × Bytes) × Bool → Bytes × Bytes := Prod.fst
  let g : (Bytes × Bytes) × Bool → Bytes × Bytes := fun e => if e.2 then (e.1.1, y) else e.1
  let L := bl.map tag ++ ((k, x), true) :: br.map tag
  have hf : L.map f = bl ++ (k, x) :: br := by simp [L, f, tag, Function.comp_def]
  have hg : L.map g = bl ++ (k, y) :: br := by simp [L, g, tag, Function.comp_def]
  have h1 : (L.mergeSort fun a b => r a.1.1 b.1.1).map f = (bl ++ (k, x) :: br).mergeSort (fun a b => r a.1 b.1) := by
    rw [← hf]
    exact List.map_mergeSort fun _ _ _ _ => rfl
  have h2 : (L.mergeSort fun a b => r a.1.1 b.1.1).map g = (bl ++ (k, y) :: br).mergeSort (fun a b => r a.1 b.1) := by
    rw [← hg]
    refine List.map_mergeSort fun a _ b _ => ?_
    have hk : ∀ e, (g e).1 = e.1.1 := by intro e; simp only [g]; split <;> rfl
    rw [hk, hk]
  have hp : (L.mergeSort fun a b => r a.1.1 b.1.1).Perm L := List.mergeSort_perm ..
  generalize L.mergeSort (fun a b => r a.1.1 b.1.1) = S at h1 h2 hp
  obtain ⟨cl, cr, rfl⟩ := List.append_of_mem (hp.mem_iff.2 (show ((k, x), true) ∈ L by simp [L]))
  have hrest : (cl ++ cr).Perm (bl.map tag ++ br.map tag) :=
    (List.perm_middle.symm.trans (hp.trans List.perm_middle)).cons_inv
  have hu : ∀ e ∈ cl ++ cr, e.2 = false := by
    intro e he
    have := hrest.mem_iff.1 he
    simp only [List.mem_append, List.mem_map, tag] at this
    rcases this with ⟨_, _, rfl⟩ | ⟨_, _, rfl⟩ <;> rfl
  have hs : ∀ c : List ((Bytes × Bytes) × Bool), (∀ e ∈ c, e.2 = false) → c.map g = c.map f := by
    intro c hc
    refine List.map_congr_left fun e he => ?_
    simp only [g, f, hc e he, Bool.false_eq_true, if_false]
  refine ⟨cl.map f, cr.map f, ?_, ?_⟩
  · rw [← h1]
    simp [f]
  · rw [← h2, List.map_append, List.map_cons, hs cl fun e he => hu e (List.mem_append_left _ he),
      hs cr fun e he => hu e (List.mem_append_right _ he)]
    simp [g]

end Revision
