import Verif.Spec.Lookup
import Verif.Props.Indexed
import Verif.Proofs.ProgramFaithful

/-! Helper lemmas: user programs against the views of indexed fields. -/

namespace Revision

theorem within_ok {m : Rd α} {b r : Bytes} {a : α} (h : m b = .ok (a, r)) : m.within b = .ok a := by
  simp only [Rd.within, h]

/-! ### Maps -/

variable {k : Codec κ} {v : Codec ν}

theorem scanMap_run (hk : k.Faithful) (hv : v.Faithful) {key : κ} {kb : Bytes} (hkey : k.valid key)
    (hkb : k.enc key = .ok kb) (t : Bytes) : ∀ (m : List (κ × ν)) (ps : List (Bytes × Bytes)),
    (∀ e ∈ m, k.valid e.1 ∧ v.valid e.2) → (m.map Prod.fst).Nodup → encEach (encPair k.enc v.enc) m = .ok ps →
    ∃ ans r, scanMap k v kb m.length ((ps.map fun p => p.1 ++ p.2).flatten ++ t) = .ok (ans, r) ∧
      ∀ val, ans = some val ↔ (key, val) ∈ m
  | [], ps, _, _, h => by
    cases h
    exact ⟨none, t, rfl, fun val => by simp⟩
  | e :: m, ps, hval, hd, h => by
    obtain ⟨p, ps', rfl, hp, hps⟩ := encEach_cons.1 h
    obtain ⟨h1, h2⟩ := encPair_ok.1 hp
    obtain ⟨v1, v2⟩ := hval e List.mem_cons_self
    simp only [List.map_cons, List.flatten_cons, List.append_assoc, List.length_cons, scanMap]
    rw [Rd.bind_of_ok (hk.round_trip _ _ v1 h1 _)]
    by_cases heq : k.enc e.1 = .ok kb
    · have hke : e.1 = key := hk.inj v1 hkey heq hkb
      simp only [heq, if_true]
      rw [Rd.bind_of_ok (hv.round_trip _ _ v2 h2 _)]
      refine ⟨some e.2, _, rfl, fun val => ?_⟩
      have hno : ∀ val, (key, val) ∉ m := fun val hm => by
        rw [List.map_cons, List.nodup_cons] at hd
        exact hd.1 (List.mem_map.2 ⟨_, hm, hke.symm⟩)
      constructor
      · intro x
        cases x
        rw [← hke]
        exact List.mem_cons_self
      · intro x
        rcases List.mem_cons.1 x with x | x
        · rw [← x]
        · exact absurd x (hno val)
    · simp only [heq, if_false]
      rw [Rd.bind_of_ok (hv.skip_after _ _ v2 h2 _)]
      obtain ⟨ans, r, hr, ha⟩ := scanMap_run hk hv hkey hkb t m ps'
        (fun x hx => hval x (List.mem_cons_of_mem _ hx)) (by rw [List.map_cons, List.nodup_cons] at hd; exact hd.2) hps
      refine ⟨ans, r, hr, fun val => (ha val).trans ⟨List.mem_cons_of_mem _, fun x => ?_⟩⟩
      rcases List.mem_cons.1 x with x | x
      · exact absurd (by rw [← x]; exact hkb) heq
      · exact x

theorem short_map_walker {ps : List (Bytes × Bytes)} (hps : ps.length < 8) :
    IndexedMapWalker.fromPayload (0 :: (writeVarint ps.length ++ (ps.map fun p => p.1 ++ p.2).flatten)) =
      .ok ⟨(ps.map fun p => p.1 ++ p.2).flatten, none, ps.length⟩ := by
  unfold IndexedMapWalker.fromPayload IndexedMapWalker.fromPayloadInner
  simp only
  rw [sliceVarint_write _ (by omega)]
  simp only [Res.ok_bind]
  rw [if_pos (by decide)]
  have e : ((0 : UInt8) :: (writeVarint ps.length ++ (ps.map fun p => p.1 ++ p.2).flatten)) =
      (0 :: writeVarint ps.length) ++ (ps.map fun p => p.1 ++ p.2).flatten := rfl
  rw [e, List.drop_left' (by simp only [List.length_cons]; omega)]

theorem mapGet_right (hk : k.Faithful) (hv : v.Faithful) (m : List (κ × ν)) (hlen : m.length < 2 ^ 56)
    (hvalid : ∀ e ∈ m, k.valid e.1 ∧ v.valid e.2) (hd : (m.map Prod.fst).Nodup)
    (hsmall : SmallPairs k.enc v.enc m) {key : κ} (hkey : k.valid key) (hkb : ∃ b, k.enc key = .ok b)
    (hne : 8 ≤ m.length → ∀ e ∈ m, v.enc e.2 ≠ .ok []) {x : Bytes}
    (hx : serializeIndexedEntries k.enc v.enc m = .ok x) :
    ∃ ans, mapGet k v key x = .ok ans ∧ ∀ val, ans = some val ↔ (key, val) ∈ m := by
  obtain ⟨kb, hkb⟩ := hkb
  by_cases h8 : 8 ≤ m.length
  · obtain ⟨w, es, w1, w2, w3, -, -, -, -, w4⟩ := C41_lookup hk m h8 hlen (fun e he => (hvalid e he).1) hd hsmall
      (hne h8) x hx
    obtain ⟨q1, q2⟩ := w4 key kb hkey hkb
    have hl : w.legacyBody = none := by
      unfold IndexedMapWalker.legacyBody
      simp only [IndexedMapWalker.isIndexed, Option.isSome_iff_exists] at w2
      obtain ⟨p, hp⟩ := w2
      rw [hp]
    unfold mapGet
    rw [hkb, Res.ok_bind, w1, Res.ok_bind, hl]
    simp only
    by_cases hin : key ∈ m.map Prod.fst
    · obtain ⟨⟨key', val⟩, he, rfl⟩ := List.mem_map.1 hin
      obtain ⟨ps, h1, -⟩ := Res.bind_eq_ok.1 hx
      obtain ⟨vb, hvb⟩ : ∃ vb, v.enc val = .ok vb := by
        obtain ⟨i, hi, e⟩ := List.getElem_of_mem he
        have := encEach_get h1 i hi (by rw [encEach_length h1]; exact hi)
        rw [e] at this
        exact ⟨_, (encPair_ok.1 this).2⟩
      rw [(q1 vb).2 ⟨val, he, hvb⟩, Res.ok_bind]
      simp only
      have := hv.round_trip val vb (hvalid _ he).2 hvb []
      rw [List.append_nil] at this
      rw [within_ok this, Res.ok_bind]
      refine ⟨some val, rfl, fun val' => ⟨?_, fun hm => ?_⟩⟩
      · intro e; cases e; exact he
      · obtain ⟨i, hi, e1⟩ := List.getElem_of_mem he
        obtain ⟨j, hj, e2⟩ := List.getElem_of_mem hm
        have := hd
        have hij : i = j := by
          refine (List.getElem_inj (xs := m.map Prod.fst) (h₀ := by rw [List.length_map]; exact hi)
            (h₁ := by rw [List.length_map]; exact hj) hd).1 ?_
          rw [List.getElem_map, List.getElem_map, e1, e2]
        subst hij
        rw [e1] at e2
        cases e2
        rfl
    · rw [q2.2 hin, Res.ok_bind]
      refine ⟨none, rfl, fun val => ⟨nofun, fun hm => absurd (List.mem_map.2 ⟨_, hm, rfl⟩) hin⟩⟩
  · obtain ⟨ps, l', h1, hp, he, hw⟩ := serializeIndexedEntries_ok hx
    have hl := encEach_length he
    have hl' := hp.length_eq
    rcases writeMapPairs_ok hw with ⟨_, rfl⟩ | ⟨h, _⟩
    · obtain ⟨ans, r, hr, ha⟩ := scanMap_run hk hv hkey hkb [] l' _
        (fun e he => hvalid e (hp.mem_iff.2 he)) ((hp.map _).nodup_iff.1 hd) he
      rw [List.append_nil, ← hl] at hr
      refine ⟨ans, ?_, fun val => (ha val).trans hp.mem_iff.symm⟩
      unfold mapGet
      rw [hkb, Res.ok_bind, short_map_walker (by omega), Res.ok_bind]
      exact within_ok hr
    · omega

/-! ### Sequences -/

variable {c : Codec α}

theorem short_seq_walker {bs : List Bytes} (hbs : bs.length < 8) :
    IndexedSeqWalker.fromPayload (0 :: (writeVarint bs.length ++ bs.flatten)) = .ok ⟨bs.flatten, none, bs.length⟩ := by
  unfold IndexedSeqWalker.fromPayload IndexedSeqWalker.fromPayloadInner
  simp only
  rw [sliceVarint_write _ (by omega)]
  simp only [Res.ok_bind]
  rw [if_pos (by decide)]
  have e : ((0 : UInt8) :: (writeVarint bs.length ++ bs.flatten)) = (0 :: writeVarint bs.length) ++ bs.flatten := rfl
  rw [e, List.drop_left' (by simp only [List.length_cons]; omega)]

theorem scanSeq_run (hc : c.Faithful) (t : Bytes) : ∀ (l : List α) (bs : List Bytes) (i : Nat) (hi : i < l.length),
    (∀ a ∈ l, c.valid a) → encEach c.enc l = .ok bs → ∃ r, scanSeq c i (bs.flatten ++ t) = .ok (l[i], r)
  | [], _, i, hi, _, _ => by simp at hi
  | a :: l, bs, i, hi, hval, h => by
    obtain ⟨b, bs', rfl, hb, hbs⟩ := encEach_cons.1 h
    have ha := hval a List.mem_cons_self
    rw [List.flatten_cons, List.append_assoc]
    cases i with
    | zero => exact ⟨_, hc.round_trip a b ha hb _⟩
    | succ i =>
      obtain ⟨r, hr⟩ := scanSeq_run hc t l bs' i (by simpa using hi) (fun x hx => hval x (List.mem_cons_of_mem _ hx)) hbs
      refine ⟨r, ?_⟩
      rw [scanSeq, Rd.bind_of_ok (hc.skip_after a b ha hb _)]
      exact hr

theorem seqGet_right (hc : c.Faithful) (l : List α) (hlen : l.length < 2 ^ 56) (hvalid : ∀ a ∈ l, c.valid a)
    (hsmall : SmallEach c.enc l) (i : Nat) (hne : 8 ≤ l.length → ∀ a ∈ l, c.enc a ≠ .ok []) {x : Bytes}
    (hx : serializeIndexedSeq c.enc l = .ok x) : seqGet c i x = .ok l[i]? := by
  by_cases h8 : 8 ≤ l.length
  · obtain ⟨w, -, w2, w3, w4, -, w5⟩ := C42_random_access l h8 hlen hsmall x hx
    have w1 := w5 fun i hi => hne h8 _ (List.getElem_mem _)
    unfold seqGet
    rw [w1, Res.ok_bind]
    by_cases hi : i < l.length
    · obtain ⟨e, he, hel⟩ := w4 i hi
      have := hc.round_trip _ e (hvalid _ (List.getElem_mem hi)) he []
      rw [List.append_nil] at this
      rw [w3, if_pos hi, w2, if_pos rfl, hel, Res.ok_bind, within_ok this, List.getElem?_eq_getElem hi]
      rfl
    · rw [w3, if_neg hi, List.getElem?_eq_none (by omega)]
      rfl
  · obtain ⟨bs, h1, h2⟩ := Res.bind_eq_ok.1 hx
    have hl := encEach_length h1
    rcases writeSeqBodies_ok h2 with ⟨_, rfl⟩ | ⟨h, _⟩
    · unfold seqGet
      rw [short_seq_walker (by omega), Res.ok_bind, hl]
      simp only [IndexedSeqWalker.isIndexed, Option.isSome_none, Bool.false_eq_true, if_false]
      by_cases hi : i < l.length
      · obtain ⟨r, hr⟩ := scanSeq_run hc [] l bs i hi hvalid h1
        rw [List.append_nil] at hr
        rw [if_pos hi, within_ok hr, List.getElem?_eq_getElem hi]
        rfl
      · rw [if_neg hi, List.getElem?_eq_none (by omega)]
        rfl
    · omega

/-! ### Sets -/

theorem searchSet_run {w : IndexedSeqWalker} {es : List Bytes} (hw : ∀ i (hi : i < es.length), w.elementBytes i = .ok es[i])
    (hasc : Ascending es) (eb : Bytes) : ∀ (n lo hi : Nat), hi - lo ≤ n → hi ≤ es.length →
    ∃ a, searchSet w eb lo hi = .ok a ∧ (a = true ↔ ∃ i, lo ≤ i ∧ i < hi ∧ es[i]? = some eb) := by
  intro n
  induction n with
  | zero =>
    intro lo hi hn hh
    refine ⟨false, ?_, ?_⟩
    · unfold searchSet; rw [dif_neg (by omega)]
    · constructor
      · nofun
      · rintro ⟨i, h1, h2, -⟩; omega
  | succ n ih =>
    intro lo hi hn hh
    by_cases hlt : lo < hi
    · have hm : lo + (hi - lo) / 2 < es.length := by omega
      have hlo : lo ≤ lo + (hi - lo) / 2 := by omega
      have hhi : lo + (hi - lo) / 2 < hi := by omega
      unfold searchSet
      rw [dif_pos hlt, hw _ hm]
      generalize lo + (hi - lo) / 2 = mid at *
      have hord : ∀ i j, i < j → ∀ (hj : j < es.length) (hi : i < es.length), cmpBytes es[i] es[j] = .lt :=
        fun i j hij hj hi => List.pairwise_iff_getElem.1 hasc i j hi hj hij
      simp only
      cases hcmp : cmpBytes es[mid] eb with
      | eq =>
        exact ⟨true, rfl, fun _ => ⟨mid, hlo, hhi, by rw [List.getElem?_eq_getElem hm, cmpBytes_eq.1 hcmp]⟩, fun _ => rfl⟩
      | lt =>
        obtain ⟨a, ha, hr⟩ := ih (mid + 1) hi (by omega) hh
        refine ⟨a, ha, hr.trans ⟨fun ⟨i, h1, h2, h3⟩ => ⟨i, by omega, h2, h3⟩, fun ⟨i, h1, h2, h3⟩ => ⟨i, ?_, h2, h3⟩⟩⟩
        obtain ⟨hil, rfl⟩ := List.getElem?_eq_some_iff.1 h3
        rcases Nat.lt_trichotomy i mid with h | h | h
        · have := cmpBytes_lt_trans (hord i mid h hm hil) hcmp
          rw [cmpBytes_self] at this; cases this
        · subst h; rw [cmpBytes_self] at hcmp; cases hcmp
        · omega
      | gt =>
        obtain ⟨a, ha, hr⟩ := ih lo mid (by omega) (by omega)
        refine ⟨a, ha, hr.trans ⟨fun ⟨i, h1, h2, h3⟩ => ⟨i, h1, by omega, h3⟩, fun ⟨i, h1, h2, h3⟩ => ⟨i, h1, ?_, h3⟩⟩⟩
        obtain ⟨hil, rfl⟩ := List.getElem?_eq_some_iff.1 h3
        rcases Nat.lt_trichotomy i mid with h | h | h
        · omega
        · subst h; rw [cmpBytes_self] at hcmp; cases hcmp
        · rw [hord mid i h hil hm] at hcmp; cases hcmp
    · refine ⟨false, ?_, ?_⟩
      · unfold searchSet; rw [dif_neg hlt]
      · constructor
        · nofun
        · rintro ⟨i, h1, h2, -⟩; omega

theorem scanSet_run (hc : c.Faithful) {a : α} {eb : Bytes} (ha : c.valid a) (heb : c.enc a = .ok eb) (t : Bytes) :
    ∀ (s : List α) (bs : List Bytes), (∀ a ∈ s, c.valid a) → encEach c.enc s = .ok bs →
    ∃ ans r, scanSet c eb s.length (bs.flatten ++ t) = .ok (ans, r) ∧ (ans = true ↔ a ∈ s)
  | [], bs, _, h => by
    cases h
    exact ⟨false, t, rfl, by simp⟩
  | x :: s, bs, hval, h => by
    obtain ⟨b, bs', rfl, hb, hbs⟩ := encEach_cons.1 h
    have hx := hval x List.mem_cons_self
    simp only [List.flatten_cons, List.append_assoc, List.length_cons, scanSet]
    rw [Rd.bind_of_ok (hc.round_trip x b hx hb _)]
    by_cases heq : c.enc x = .ok eb
    · simp only [heq, if_true]
      refine ⟨true, _, rfl, fun _ => ?_, fun _ => rfl⟩
      rw [hc.inj hx ha heq heb]
      exact List.mem_cons_self
    · simp only [heq, if_false]
      obtain ⟨ans, r, hr, hs⟩ := scanSet_run hc ha heb t s bs' (fun y hy => hval y (List.mem_cons_of_mem _ hy)) hbs
      refine ⟨ans, r, hr, hs.trans ⟨List.mem_cons_of_mem _, fun hm => ?_⟩⟩
      rcases List.mem_cons.1 hm with rfl | hm
      · exact absurd heb heq
      · exact hm

theorem setHas_right (hc : c.Faithful) (s : List α) (hlen : s.length < 2 ^ 56) (hvalid : ∀ a ∈ s, c.valid a)
    (hd : s.Nodup) (hsmall : SmallEach c.enc s) {a : α} (ha : c.valid a) (heb : ∃ b, c.enc a = .ok b)
    {x : Bytes}
    (hx : serializeIndexedSet c.enc s = .ok x) : ∃ ans, setHas c a x = .ok ans ∧ (ans = true ↔ a ∈ s) := by
  obtain ⟨eb, heb⟩ := heb
  by_cases h8 : 8 ≤ s.length
  · obtain ⟨w, es, w1, w2, w3, w4, w5, w6, w7⟩ := C43_sorted hc s h8 hlen hvalid hd hsmall x hx
    unfold setHas
    rw [heb, Res.ok_bind, w1, Res.ok_bind, w2, if_pos rfl]
    obtain ⟨ans, h1, h2⟩ := searchSet_run w6 w5 eb w.len 0 w.len (by omega) (by omega)
    refine ⟨ans, h1, h2.trans ⟨?_, ?_⟩⟩
    · rintro ⟨i, -, -, h⟩
      obtain ⟨a', ha', e⟩ := (w7 eb).1 (List.mem_of_getElem? h)
      rw [hc.inj ha (hvalid a' ha') heb e]
      exact ha'
    · intro hm
      obtain ⟨i, hi, e⟩ := List.getElem_of_mem ((w7 eb).2 ⟨a, hm, heb⟩)
      exact ⟨i, by omega, by omega, by rw [List.getElem?_eq_getElem hi, e]⟩
  · obtain ⟨bs, l', h1, hp, he, hw⟩ := serializeIndexedSet_ok hx
    have hl := encEach_length he
    have hl' := hp.length_eq
    rcases writeSeqBodies_ok hw with ⟨_, rfl⟩ | ⟨h, _⟩
    · obtain ⟨ans, r, hr, hs⟩ := scanSet_run hc ha heb [] l' _ (fun a ha => hvalid a (hp.mem_iff.2 ha)) he
      rw [List.append_nil, ← hl] at hr
      refine ⟨ans, ?_, hs.trans hp.mem_iff.symm⟩
      unfold setHas
      rw [heb, Res.ok_bind, short_seq_walker (by omega), Res.ok_bind]
      simp only [IndexedSeqWalker.isIndexed, Option.isSome_none, Bool.false_eq_true, if_false]
      exact within_ok hr
    · omega

end Revision
