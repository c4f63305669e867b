import Verif.Spec.Entries
import Verif.Proofs.Indexed
import Verif.Proofs.Packed

/-! # Lemmas about the entries on the wire -/

namespace Revision

theorem readN_iff_each {r : Rd α} {n : Nat} {l : List α} {s rest : Bytes} :
    Rd.readN n r s = .ok (l, rest) ↔ l.length = n ∧ Each r l s rest := by
  induction n generalizing l s with
  | zero =>
    constructor
    · intro h
      have h : Res.ok (([] : List α), s) = .ok (l, rest) := h
      simp only [Res.ok.injEq, Prod.mk.injEq] at h
      obtain ⟨rfl, rfl⟩ := h
      exact ⟨rfl, .nil⟩
    · rintro ⟨h, he⟩
      rw [List.length_eq_zero_iff] at h
      subst h
      cases he
      rfl
  | succ n ih =>
    constructor
    · intro h
      rw [Rd.readN] at h
      obtain ⟨a, s', h1, h'⟩ := Rd.bind_ok.1 h; clear h; have h := h'; clear h'
      obtain ⟨l', s'', h2, h'⟩ := Rd.bind_ok.1 h; clear h; have h := h'; clear h'
      obtain ⟨rfl, rfl⟩ := by simpa using h
      obtain ⟨h3, h4⟩ := ih.1 h2
      exact ⟨by simp [h3], .cons h1 h4⟩
    · rintro ⟨h, he⟩
      cases he with
      | nil => simp at h
      | cons h1 h2 =>
        rw [Rd.readN]
        rw [Rd.bind_of_ok h1, Rd.bind_of_ok (ih.2 ⟨by simpa using h, h2⟩)]
        rfl

section
variable {κ : Type} {cmp : κ → κ → Ordering} [Std.TransCmp cmp]

theorem btreeInsert_find (l : List (κ × ν)) (hl : StrictAsc cmp (l.map Prod.fst)) (p : κ × ν) (key : κ) :
    ((btreeInsert cmp l p).find? fun e => cmp e.1 key == .eq).map Prod.snd =
      if cmp p.1 key = .eq then some p.2
      else (l.find? fun e => cmp e.1 key == .eq).map Prod.snd := by
  induction l with
  | nil =>
    simp only [btreeInsert]
    by_cases h : cmp p.1 key = .eq <;> simp [h]
  | cons e l ih =>
    have hx := List.pairwise_cons.1 hl
    rw [btreeInsert]
    split
    · by_cases h : cmp p.1 key = .eq <;> simp [h]
    · rename_i heq
      by_cases h : cmp p.1 key = .eq
      · have : cmp e.1 key = .eq :=
          Std.TransCmp.eq_trans (Std.OrientedCmp.eq_symm heq) h
        simp [h, this]
      · have : cmp e.1 key ≠ .eq := fun h' => h (Std.TransCmp.eq_trans heq h')
        simp [h, this]
    · rename_i hgt
      simp only [List.find?_cons]
      by_cases he : cmp e.1 key = .eq
      · have : cmp p.1 key ≠ .eq := by
          intro h'
          have := Std.TransCmp.eq_trans h' (Std.OrientedCmp.eq_symm he)
          rw [this] at hgt
          cases hgt
        simp [he, this]
      · have : (cmp e.1 key == .eq) = false := by simpa using he
        rw [this]
        exact ih hx.2

theorem btree_foldl_find (l : List (κ × ν)) (key : κ) : ∀ acc : List (κ × ν),
    StrictAsc cmp (acc.map Prod.fst) →
    ((l.foldl (btreeInsert cmp) acc).find? fun e => cmp e.1 key == .eq).map Prod.snd =
      ((l.reverse.find? fun e => cmp e.1 key == .eq).map Prod.snd).or
        ((acc.find? fun e => cmp e.1 key == .eq).map Prod.snd) := by
  induction l with
  | nil => intro acc _; simp
  | cons p l ih =>
    intro acc h
    rw [List.foldl_cons, ih _ (btreeInsert_strict p h), btreeInsert_find acc h]
    simp only [List.reverse_cons, List.find?_append]
    cases hf : l.reverse.find? (fun e => cmp e.1 key == .eq) with
    | some y => simp
    | none => by_cases hpk : cmp p.1 key = .eq <;> simp [hpk]

end

theorem alloc_ok {c : Bool} {s : Bytes} {r : Unit × Bytes} (h : Rd.alloc c s = .ok r) : c = true ∧ r = ((), s) := by
  cases c with
  | true => exact ⟨rfl, by have h : Res.ok ((), s) = .ok r := h; simpa using h.symm⟩
  | false => exact absurd (show Res.panic = .ok r from h) (by simp)

theorem advance_iff {n : Nat} {s s' : Bytes} {u : Unit} :
    Rd.advance n s = .ok (u, s') ↔ ∃ p, s = p ++ s' ∧ p.length = n := by
  cases u
  constructor
  · intro h
    have h : (if n ≤ s.length then Res.ok ((), s.drop n) else Res.err .io) = .ok ((), s') := h
    split at h
    case isFalse => simp at h
    case isTrue =>
      simp only [Res.ok.injEq, Prod.mk.injEq, true_and] at h
      exact ⟨s.take n, by rw [← h, List.take_append_drop], by simp; omega⟩
  · rintro ⟨p, rfl, h⟩
    exact Rd.advance_append p s' n h

theorem lift_iff {x : Res α} {a : α} {s s' : Bytes} :
    Rd.lift x s = .ok (a, s') ↔ x = .ok a ∧ s' = s := by
  cases x with
  | ok b =>
    have : Rd.lift (.ok b) s = .ok (b, s) := rfl
    rw [this]
    simp only [Res.ok.injEq, Prod.mk.injEq]
    exact ⟨fun h => ⟨h.1, h.2.symm⟩, fun h => ⟨h.1, h.2.symm⟩⟩
  | err e => exact ⟨fun h => by have h : Res.err e = .ok (a, s') := h; simp at h, fun h => by simp at h⟩
  | panic => exact ⟨fun h => by have h : Res.panic = .ok (a, s') := h; simp at h, fun h => by simp at h⟩

theorem readByte_iff {b : UInt8} {s s' : Bytes} : Rd.readByte s = .ok (b, s') ↔ s = b :: s' := by
  cases s with
  | nil => exact ⟨fun h => by have h : Res.err .io = .ok (b, s') := h; simp at h, fun h => by simp at h⟩
  | cons c t =>
    rw [Rd.readByte_cons]
    simp

/-- What the indexed map decoder accepts, whatever the allocator grants. -/
theorem readIndexedMap_onWire {pre capK capV : Nat → Bool}
    {k : Rd κ} {v : Rd ν} {build : List (κ × ν) → List (κ × ν)} {s rest : Bytes} {m : List (κ × ν)}
    (h : readIndexedMap pre capK capV k v build s = .ok (m, rest)) :
    ∃ wire, MapOnWire k v wire s rest ∧ build wire = m := by
  rw [readIndexedMap] at h
  obtain ⟨flags, s₁, h1, h'⟩ := Rd.bind_ok.1 h; clear h; have h := h'; clear h'
  obtain ⟨len, s₂, h2, h'⟩ := Rd.bind_ok.1 h; clear h; have h := h'; clear h'
  obtain ⟨u, s₃, h3, h'⟩ := Rd.bind_ok.1 h; clear h; have h := h'; clear h'
  obtain ⟨-, h3⟩ := alloc_ok h3
  obtain ⟨rfl, rfl⟩ := Prod.mk.inj h3
  rw [readByte_iff] at h1
  by_cases hf : flags &&& 1 = 0
  · rw [if_pos hf] at h
    obtain ⟨l, s₄, h4, h'⟩ := Rd.bind_ok.1 h; clear h; have h := h'; clear h'
    have h : Res.ok (build l, s₄) = .ok (m, rest) := h
    simp only [Res.ok.injEq, Prod.mk.injEq] at h
    obtain ⟨rfl, rfl⟩ := h
    obtain ⟨rfl, g4⟩ := readN_iff_each.1 h4
    exact ⟨l, ⟨flags, s₁, _, h1, h2, .inl ⟨hf, g4⟩⟩, rfl⟩
  · rw [if_neg hf] at h
    obtain ⟨tb, _, h4, h'⟩ := Rd.bind_ok.1 h; clear h; have h := h'; clear h'
    obtain ⟨h4, rfl⟩ := lift_iff.1 h4
    obtain ⟨n, _, h5, h'⟩ := Rd.bind_ok.1 h; clear h; have h := h'; clear h'
    obtain ⟨h5, rfl⟩ := lift_iff.1 h5
    obtain ⟨⟨⟩, s₅, h6, h'⟩ := Rd.bind_ok.1 h; clear h; have h := h'; clear h'
    obtain ⟨table, ht, hn⟩ := advance_iff.1 h6
    obtain ⟨⟨⟩, _, h7, h'⟩ := Rd.bind_ok.1 h; clear h; have h := h'; clear h'
    obtain ⟨-, h7⟩ := alloc_ok h7
    obtain ⟨-, rfl⟩ := Prod.mk.inj h7
    obtain ⟨ks, s₆, h8, h'⟩ := Rd.bind_ok.1 h; clear h; have h := h'; clear h'
    obtain ⟨⟨⟩, _, h9, h'⟩ := Rd.bind_ok.1 h; clear h; have h := h'; clear h'
    obtain ⟨-, h9⟩ := alloc_ok h9
    obtain ⟨-, rfl⟩ := Prod.mk.inj h9
    obtain ⟨vs, s₇, h10, h'⟩ := Rd.bind_ok.1 h; clear h; have h := h'; clear h'
    have h : Res.ok (build (ks.zip vs), s₇) = .ok (m, rest) := h
    simp only [Res.ok.injEq, Prod.mk.injEq] at h
    obtain ⟨rfl, rfl⟩ := h
    obtain ⟨hk, g8⟩ := readN_iff_each.1 h8
    obtain ⟨hv, g10⟩ := readN_iff_each.1 h10
    have e4 : tb = len * 8 := by
      unfold checkedMul at h4; split at h4 <;> simp at h4; exact h4.symm
    have e5 : n = tb + 8 := by
      unfold addU at h5; split at h5 <;> simp at h5; exact h5.symm
    have hz : (ks.zip vs).length = len := by simp [hk, hv]
    refine ⟨ks.zip vs, ⟨flags, s₁, _, h1, by rw [hz]; exact h2, .inr ⟨hf, table, _, ?x, ht, by omega, ?_, ?_⟩⟩, rfl⟩
    rotate_left
    · rw [List.map_fst_zip (by omega)]; exact g8
    · rw [List.map_snd_zip (by omega)]; exact g10

theorem readIndexedSeq_onWire {cap : Nat → Bool} {c : Rd α} {s rest : Bytes} {l : List α}
    (h : readIndexedSeq cap c s = .ok (l, rest)) : SeqOnWire c l s rest := by
  rw [readIndexedSeq] at h
  obtain ⟨flags, s₁, h1, h'⟩ := Rd.bind_ok.1 h; clear h; have h := h'; clear h'
  obtain ⟨len, s₂, h2, h'⟩ := Rd.bind_ok.1 h; clear h; have h := h'; clear h'
  rw [readByte_iff] at h1
  by_cases hf : flags &&& 1 = 0
  · rw [if_pos hf] at h
    obtain ⟨⟨⟩, _, h3, h'⟩ := Rd.bind_ok.1 h; clear h; have h := h'; clear h'
    obtain ⟨-, h3⟩ := alloc_ok h3
    obtain ⟨-, rfl⟩ := Prod.mk.inj h3
    obtain ⟨rfl, g⟩ := readN_iff_each.1 h
    exact ⟨flags, s₁, _, h1, h2, .inl ⟨hf, g⟩⟩
  · rw [if_neg hf] at h
    obtain ⟨tb, _, h4, h'⟩ := Rd.bind_ok.1 h; clear h; have h := h'; clear h'
    obtain ⟨h4, rfl⟩ := lift_iff.1 h4
    obtain ⟨⟨⟩, s₅, h6, h'⟩ := Rd.bind_ok.1 h; clear h; have h := h'; clear h'
    obtain ⟨table, ht, hn⟩ := advance_iff.1 h6
    obtain ⟨⟨⟩, _, h7, h'⟩ := Rd.bind_ok.1 h; clear h; have h := h'; clear h'
    obtain ⟨-, h7⟩ := alloc_ok h7
    obtain ⟨-, rfl⟩ := Prod.mk.inj h7
    obtain ⟨rfl, g⟩ := readN_iff_each.1 h
    have e4 : tb = l.length * 4 := by
      unfold checkedMul at h4; split at h4 <;> simp at h4; exact h4.symm
    exact ⟨flags, s₁, _, h1, h2, .inr ⟨hf, table, _, ht, by omega, g⟩⟩

theorem readVarint_framed : readVarint.Framed :=
  .bind .readByte fun _ => .ite (.pure _) (.ite (.bind (.readExact _) fun _ => .pure _)
    (.ite (.bind (.readExact _) fun _ => .pure _) (.ite (.bind (.readExact _) fun _ => .pure _) (.fail _))))

theorem readVarint_length {s s' : Bytes} {n : Nat} (h : readVarint s = .ok (n, s')) :
    s'.length ≤ s.length := by
  obtain ⟨u, h, -⟩ := readVarint_framed _ _ _ h
  rw [h]; simp

/-- Conversely, entries on the wire are accepted if the allocations are granted. -/
theorem readIndexedMap_of_onWire {pre capK capV : Nat → Bool}
    (h0 : ∀ n, pre n = true ∧ capK n = true ∧ capV n = true)
    {k : Rd κ} {v : Rd ν} (build : List (κ × ν) → List (κ × ν)) {s rest : Bytes} {wire : List (κ × ν)}
    (hs : s.length < 2 ^ 64) (h : MapOnWire k v wire s rest) :
    readIndexedMap pre capK capV k v build s = .ok (build wire, rest) := by
  obtain ⟨flags, s₁, s₂, rfl, h2, h⟩ := h
  have hl := readVarint_length h2
  have ha : ∀ s, Rd.alloc true s = .ok ((), s) := fun _ => rfl
  rw [readIndexedMap, Rd.bind_of_ok (Rd.readByte_cons _ _), Rd.bind_of_ok h2, (h0 _).1,
    Rd.bind_of_ok (ha _)]
  rcases h with ⟨hf, h⟩ | ⟨hf, table, s₃, s₄, rfl, ht, hk, hv⟩
  · rw [if_pos hf, Rd.bind_of_ok (readN_iff_each.2 ⟨rfl, h⟩)]
    rfl
  · simp only [List.length_append, List.length_cons] at hl hs
    have e1 : checkedMul wire.length 8 .overrun = .ok (wire.length * 8) := by
      unfold checkedMul; rw [if_pos (by omega)]
    have e2 : addU (wire.length * 8) 8 = .ok (wire.length * 8 + 8) := by
      unfold addU; rw [if_pos (by omega)]
    rw [if_neg hf, e1, Rd.lift_ok, Rd.pure_bind, e2, Rd.lift_ok, Rd.pure_bind,
      Rd.bind_of_ok (Rd.advance_append _ _ _ (by omega)), (h0 _).2.1, Rd.bind_of_ok (ha _),
      Rd.bind_of_ok (readN_iff_each.2 ⟨by simp, hk⟩), (h0 _).2.2, Rd.bind_of_ok (ha _),
      Rd.bind_of_ok (readN_iff_each.2 ⟨by simp, hv⟩)]
    have : (wire.map Prod.fst).zip (wire.map Prod.snd) = wire := by
      induction wire with
      | nil => rfl
      | cons e l ih => simp [List.zip_map']
    rw [this]
    rfl

theorem readIndexedSeq_of_onWire {cap : Nat → Bool} (h0 : ∀ n, cap n = true)
    {c : Rd α} {s rest : Bytes} {wire : List α}
    (hs : s.length < 2 ^ 64) (h : SeqOnWire c wire s rest) :
    readIndexedSeq cap c s = .ok (wire, rest) := by
  obtain ⟨flags, s₁, s₂, rfl, h2, h⟩ := h
  have hl := readVarint_length h2
  have ha : ∀ s, Rd.alloc true s = .ok ((), s) := fun _ => rfl
  rw [readIndexedSeq, Rd.bind_of_ok (Rd.readByte_cons _ _), Rd.bind_of_ok h2]
  rcases h with ⟨hf, h⟩ | ⟨hf, table, s₃, rfl, ht, h⟩
  · rw [if_pos hf, h0, Rd.bind_of_ok (ha _), readN_iff_each.2 ⟨rfl, h⟩]
  · simp only [List.length_append, List.length_cons] at hl hs
    have e1 : checkedMul wire.length 4 .overrun = .ok (wire.length * 4) := by
      unfold checkedMul; rw [if_pos (by omega)]
    rw [if_neg hf, e1, Rd.lift_ok, Rd.pure_bind,
      Rd.bind_of_ok (Rd.advance_append _ _ _ (by omega)), h0, Rd.bind_of_ok (ha _),
      readN_iff_each.2 ⟨rfl, h⟩]

end Revision
