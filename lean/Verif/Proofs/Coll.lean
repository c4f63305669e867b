import Verif.Proofs.Std2
import Verif.Proofs.BytesOrd

/-! Helper lemmas: collections. -/

namespace Revision

theorem collC_lawful (cfg : Cfg) {cap : Nat → Bool} (hmono : ∀ m n, m ≤ n → cap n = true → cap m = true)
    {c : Codec α} (hc : c.Lawful) {inv : List α → Prop} {build : List α → List α}
    (hfix : ∀ l, inv l → build l = l) (hinv : ∀ l, inv (build l))
    (hval : ∀ l, (∀ a ∈ l, c.valid a) → ∀ a ∈ build l, c.valid a)
    (hlen : ∀ l, (build l).length ≤ l.length) :
    (collC cfg cap c inv build).Lawful where
  enc_ok := by
    rintro l ⟨h1, h2, h3, h4⟩
    obtain ⟨b, hb⟩ := encList_ok fun a ha => hc.enc_ok a (h3 a ha)
    exact ⟨encLen cfg l.length ++ b, by simp [collC, hb]⟩
  round_trip := by
    rintro l b ⟨h1, h2, h3, h4⟩ h t
    simp only [collC, Res.bind_eq_ok] at h
    obtain ⟨x, hx, h⟩ := h
    simp at h
    subst h
    simp only [collC, readColl]
    rw [List.append_assoc, Rd.bind_of_ok (readLen_encLen cfg h1 _), h2, Rd.alloc_true, Rd.pure_bind]
    rw [Rd.bind_of_ok (Rd.readN_append (fun a ha b t h => hc.round_trip a b (h3 a ha) h t) hx t),
      hfix l h4]
    rfl
  framed := Rd.Framed.bind (readLen_framed cfg) fun n => 
    Rd.Framed.bind (Rd.Framed.alloc _) fun _ => Rd.Framed.bind (Rd.Framed.readN hc.framed n) fun _ =>
      Rd.Framed.pure _
  sound := by
    refine Rd.Yields.bind (readLen_yields cfg) fun n hn =>
      Rd.Yields.alloc_bind fun hcap => Rd.Yields.bind (Rd.Yields.readN hc.sound n) ?_
    rintro l ⟨rfl, hl⟩
    refine Rd.Yields.pure ⟨?_, hmono _ _ (hlen l) hcap, hval l hl, hinv l⟩
    have := hlen l
    omega
  skip_agree := Rd.Agree.bind_same fun n => 
    Rd.Agree.alloc_left (Rd.Agree.bind_pure_left (Rd.Agree.readN hc.skip_agree n))
  skip_framed := Rd.Framed.bind (readLen_framed cfg) fun n => Rd.Framed.repeatN hc.skip_framed n
  skipS_eq := by simp only [collC, hc.skipS_eq]

theorem collC_checks (cfg : Cfg) (cap) {c : Codec α} {inv build} : (collC cfg cap c inv build).Checks :=
  Rd.SameAccept.discard _

theorem collC_panicFree (cfg : Cfg) {cap} (hcap : ∀ n, cap n = true) {c : Codec α}
    (hc : c.PanicFree) {inv build} : (collC cfg cap c inv build).PanicFree := by
  have h : (collC cfg cap c inv build).dec.NoPanic := Rd.NoPanic.bind (readLen_noPanic cfg) fun n =>
    Rd.NoPanic.bind (Rd.NoPanic.alloc (hcap _))
      fun _ => Rd.NoPanic.bind (Rd.NoPanic.readN hc.dec n) fun _ => Rd.NoPanic.pure _
  exact ⟨h, Rd.NoPanic.bind (readLen_noPanic cfg) fun n => Rd.NoPanic.repeatN hc.skip n, h.discard⟩

/-! ### Hash collections -/

theorem hashInsert_fresh {eq : κ → κ → Bool} {l : List (κ × ν)} {p : κ × ν}
    (h : ∀ e ∈ l, eq e.1 p.1 = false) : hashInsert eq l p = l ++ [p] := by
  rw [hashInsert, if_neg]
  simpa using h

theorem hash_foldl_fix {eq : κ → κ → Bool} (l : List (κ × ν)) : ∀ acc : List (κ × ν),
    DistinctKeys eq ((acc ++ l).map Prod.fst) → l.foldl (hashInsert eq) acc = acc ++ l := by
  induction l with
  | nil => intro acc _; simp
  | cons p l ih =>
    intro acc h
    rw [List.foldl_cons, hashInsert_fresh, ih]
    · simp
    · simpa using h
    · intro e he
      simp only [DistinctKeys, List.map_append, List.map_cons, List.pairwise_append] at h
      exact h.2.2 e.1 (by simpa using ⟨e.2, he⟩) p.1 (by simp)

theorem hashInsert_distinct {eq : κ → κ → Bool} {l : List (κ × ν)} {p : κ × ν}
    (h : DistinctKeys eq (l.map Prod.fst)) : DistinctKeys eq ((hashInsert eq l p).map Prod.fst) := by
  unfold hashInsert
  split
  · have : (l.map fun e => if eq e.1 p.1 = true then (e.1, p.2) else e).map Prod.fst = l.map Prod.fst := by
      rw [List.map_map]
      apply List.map_congr_left
      intro a _
      simp only [Function.comp]
      split <;> rfl
    rw [this]; exact h
  · rename_i hn
    simp only [List.any_eq_true, not_exists, not_and, Bool.not_eq_true] at hn
    simp only [DistinctKeys, List.map_append, List.pairwise_append]
    refine ⟨h, by simp, ?_⟩
    intro a ha b hb
    simp at hb ha
    obtain ⟨x, hx⟩ := ha
    subst hb
    exact hn (a, x) hx

theorem hash_foldl_distinct {eq : κ → κ → Bool} (l : List (κ × ν)) : ∀ acc : List (κ × ν),
    DistinctKeys eq (acc.map Prod.fst) → DistinctKeys eq ((l.foldl (hashInsert eq) acc).map Prod.fst) := by
  induction l with
  | nil => intro acc h; exact h
  | cons p l ih => intro acc h; exact ih _ (hashInsert_distinct h)

theorem hashInsert_length {eq : κ → κ → Bool} (l : List (κ × ν)) (p : κ × ν) :
    (hashInsert eq l p).length ≤ l.length + 1 := by
  unfold hashInsert; split <;> simp

theorem hash_foldl_length {eq : κ → κ → Bool} (l : List (κ × ν)) : ∀ acc : List (κ × ν),
    (l.foldl (hashInsert eq) acc).length ≤ acc.length + l.length := by
  induction l with
  | nil => intro acc; simp
  | cons p l ih =>
    intro acc
    have h1 := ih (hashInsert eq acc p)
    have h2 := hashInsert_length (eq := eq) acc p
    simp only [List.foldl_cons, List.length_cons]
    omega

theorem hash_foldl_valid {eq : κ → κ → Bool} {P : κ → Prop} {Q : ν → Prop} (l : List (κ × ν)) :
    ∀ acc : List (κ × ν), (∀ e ∈ acc, P e.1 ∧ Q e.2) → (∀ e ∈ l, P e.1 ∧ Q e.2) →
      ∀ e ∈ l.foldl (hashInsert eq) acc, P e.1 ∧ Q e.2 := by
  induction l with
  | nil => intro acc h _; exact h
  | cons p l ih =>
    intro acc h1 h2
    apply ih _ _ (fun e he => h2 e (by simp [he]))
    intro e he
    unfold hashInsert at he
    split at he
    · simp only [List.mem_map] at he
      obtain ⟨e', he', rfl⟩ := he
      split
      · exact ⟨(h1 e' he').1, (h2 p (by simp)).2⟩
      · exact h1 e' he'
    · simp only [List.mem_append, List.mem_singleton] at he
      rcases he with he | rfl
      · exact h1 e he
      · exact h2 e (by simp)

theorem hashMapC_lawful (cfg : Cfg) {cap : Nat → Bool}
    (hmono : ∀ m n, m ≤ n → cap n = true → cap m = true) (eq : κ → κ → Bool)
    {k : Codec κ} {v : Codec ν} (hk : k.Lawful) (hv : v.Lawful) : (hashMapC cfg cap eq k v).Lawful := by
  refine collC_lawful cfg hmono (pairC_lawful hk hv) ?_ ?_ ?_ ?_
  · intro l h; simpa using hash_foldl_fix l [] (by simpa using h)
  · intro l; exact hash_foldl_distinct l [] (by simp [DistinctKeys])
  · intro l h; exact hash_foldl_valid l [] (by simp) h
  · intro l; simpa using hash_foldl_length (eq := eq) l []

theorem hashSet_foldl_fix {eq : κ → κ → Bool} (l : List κ) : ∀ acc : List κ,
    DistinctKeys eq (acc ++ l) → l.foldl (hashSetInsert eq) acc = acc ++ l := by
  induction l with
  | nil => intro acc _; simp
  | cons p l ih =>
    intro acc h
    have : hashSetInsert eq acc p = acc ++ [p] := by
      rw [hashSetInsert, if_neg]
      simp only [DistinctKeys, List.pairwise_append] at h
      simp only [List.any_eq_true, not_exists, not_and, Bool.not_eq_true]
      intro e he
      exact h.2.2 e he p (by simp)
    rw [List.foldl_cons, this, ih]
    · simp
    · simpa using h

theorem hashSet_foldl_inv {eq : κ → κ → Bool} (l : List κ) : ∀ acc : List κ,
    DistinctKeys eq acc → DistinctKeys eq (l.foldl (hashSetInsert eq) acc) := by
  induction l with
  | nil => intro acc h; exact h
  | cons p l ih =>
    intro acc h
    apply ih
    unfold hashSetInsert
    split
    · exact h
    · rename_i hn
      simp only [List.any_eq_true, not_exists, not_and, Bool.not_eq_true] at hn
      simp only [DistinctKeys, List.pairwise_append]
      refine ⟨h, by simp, ?_⟩
      intro a ha b hb
      simp at hb
      subst hb
      exact hn a ha

theorem hashSet_foldl_mem {eq : κ → κ → Bool} (l : List κ) : ∀ acc : List κ,
    ∀ a ∈ l.foldl (hashSetInsert eq) acc, a ∈ acc ∨ a ∈ l := by
  induction l with
  | nil => intro acc a h; exact Or.inl h
  | cons p l ih =>
    intro acc a h
    rcases ih _ a h with h | h
    · unfold hashSetInsert at h
      split at h
      · exact Or.inl h
      · simp at h; rcases h with h | h <;> simp [h]
    · simp [h]

theorem hashSet_foldl_has {eq : κ → κ → Bool} (hrefl : ∀ a, eq a a = true) (l : List κ) :
    ∀ acc : List κ, ∀ a, a ∈ acc ∨ a ∈ l → ∃ y ∈ l.foldl (hashSetInsert eq) acc, eq y a = true := by
  have keep : ∀ (l acc : List κ) a, a ∈ acc → a ∈ l.foldl (hashSetInsert eq) acc := by
    intro l
    induction l with
    | nil => intro acc a h; exact h
    | cons p l ih =>
      intro acc a h
      refine ih _ a ?_
      unfold hashSetInsert
      split
      · exact h
      · simp [h]
  induction l with
  | nil =>
    rintro acc a (h | h)
    · exact ⟨a, h, hrefl a⟩
    · simp at h
  | cons p l ih =>
    rintro acc a (h | h)
    · exact ⟨a, keep _ _ a h, hrefl a⟩
    · rcases List.mem_cons.1 h with rfl | h
      · simp only [List.foldl_cons]
        by_cases hany : acc.any (fun e => eq e a) = true
        · obtain ⟨y, hy, he⟩ := List.any_eq_true.1 hany
          refine ⟨y, keep _ _ y ?_, he⟩
          rw [hashSetInsert, if_pos hany]
          exact hy
        · refine ⟨a, keep _ _ a ?_, hrefl a⟩
          rw [hashSetInsert, if_neg hany]
          simp
      · exact ih _ a (.inr h)

theorem hashSet_foldl_length {eq : κ → κ → Bool} (l : List κ) : ∀ acc : List κ,
    (l.foldl (hashSetInsert eq) acc).length ≤ acc.length + l.length := by
  induction l with
  | nil => intro acc; simp
  | cons p l ih =>
    intro acc
    have h1 := ih (hashSetInsert eq acc p)
    have h2 : (hashSetInsert eq acc p).length ≤ acc.length + 1 := by
      unfold hashSetInsert; split <;> simp
    simp only [List.foldl_cons, List.length_cons]
    omega

theorem hashSetC_lawful (cfg : Cfg) {cap : Nat → Bool}
    (hmono : ∀ m n, m ≤ n → cap n = true → cap m = true) (eq : κ → κ → Bool)
    {k : Codec κ} (hk : k.Lawful) : (hashSetC cfg cap eq k).Lawful := by
  refine collC_lawful cfg hmono hk ?_ ?_ ?_ ?_
  · intro l h; simpa using hashSet_foldl_fix l [] (by simpa using h)
  · intro l; exact hashSet_foldl_inv l [] (by simp [DistinctKeys])
  · intro l h a ha
    rcases hashSet_foldl_mem l [] a ha with h' | h'
    · simp at h'
    · exact h a h'
  · intro l; simpa using hashSet_foldl_length (eq := eq) l []

/-! ### B-trees -/

section BTree
variable {κ : Type} (cmp : κ → κ → Ordering) (key : α → κ)

theorem dedupLast_fix (l : List α) (h : StrictAsc cmp (l.map key)) : dedupLast cmp key l = l := by
  induction l with
  | nil => rfl
  | cons a l ih =>
    cases l with
    | nil => rfl
    | cons b l =>
      have h' := h
      simp only [StrictAsc, List.map_cons, List.pairwise_cons] at h'
      have hab := h'.1 (key b) (by simp)
      rw [dedupLast, if_neg (by simp [hab]), ih]
      simp only [StrictAsc, List.map_cons, List.pairwise_cons]
      exact h'.2

theorem dedupLast_sublist (l : List α) : (dedupLast cmp key l).Sublist l := by
  induction l with
  | nil => simp [dedupLast]
  | cons a l ih =>
    cases l with
    | nil => simp [dedupLast]
    | cons b l =>
      rw [dedupLast]
      split
      · exact ih.cons a
      · exact ih.cons_cons a

variable [Std.TransCmp cmp]

theorem btree_le_trans (a b c : α) (h1 : (cmp (key a) (key b)).isLE = true)
    (h2 : (cmp (key b) (key c)).isLE = true) : (cmp (key a) (key c)).isLE = true :=
  Std.TransCmp.isLE_trans h1 h2

theorem btree_le_total (a b : α) :
    ((cmp (key a) (key b)).isLE || (cmp (key b) (key a)).isLE) = true := by
  have := Std.OrientedCmp.eq_swap (cmp := cmp) (a := key a) (b := key b)
  rw [this]
  cases cmp (key b) (key a) <;> rfl

theorem dedupLast_strict (l : List α)
    (h : l.Pairwise fun a b => (cmp (key a) (key b)).isLE = true) :
    StrictAsc cmp ((dedupLast cmp key l).map key) := by
  induction l with
  | nil => simp [dedupLast, StrictAsc]
  | cons a l ih =>
    cases l with
    | nil => simp [dedupLast, StrictAsc]
    | cons b l =>
      have hp := h
      rw [List.pairwise_cons] at h
      rw [dedupLast]
      split
      · exact ih h.2
      · rename_i hne
        simp only [StrictAsc, List.map_cons, List.pairwise_cons]
        refine ⟨?_, ih h.2⟩
        intro k hk
        simp only [List.mem_map] at hk
        obtain ⟨x, hx, rfl⟩ := hk
        have hx' := (dedupLast_sublist cmp key (b :: l)).subset hx
        have hab : cmp (key a) (key b) = .lt := by
          have := h.1 b (by simp)
          cases hc : cmp (key a) (key b) <;> simp_all
        have hbx : (cmp (key b) (key x)).isLE = true := by
          rcases List.mem_cons.1 hx' with rfl | hx'
          · simp [Std.ReflCmp.compare_self (cmp := cmp)]
          · exact (List.pairwise_cons.1 h.2).1 x hx'
        exact Std.TransCmp.lt_of_lt_of_isLE hab hbx

theorem btreeBuild_strict (l : List α) : StrictAsc cmp ((btreeBuild cmp key l).map key) :=
  dedupLast_strict cmp key _
    (List.pairwise_mergeSort (btree_le_trans cmp key) (btree_le_total cmp key) l)

omit [Std.TransCmp cmp] in
theorem btreeBuild_fix (l : List α) (h : StrictAsc cmp (l.map key)) : btreeBuild cmp key l = l := by
  rw [btreeBuild, List.mergeSort_of_pairwise, dedupLast_fix cmp key l h]
  simp only [StrictAsc, List.pairwise_map] at h
  exact h.imp fun h => by simp [h]

omit [Std.TransCmp cmp] in
theorem btreeBuild_mem {l : List α} {a : α} (h : a ∈ btreeBuild cmp key l) : a ∈ l := by
  have := (dedupLast_sublist cmp key _).subset h
  simpa using this

omit [Std.TransCmp cmp] in
theorem btreeBuild_length (l : List α) : (btreeBuild cmp key l).length ≤ l.length := by
  have := (dedupLast_sublist cmp key (l.mergeSort fun a b => (cmp (key a) (key b)).isLE)).length_le
  simpa [btreeBuild] using this

/-- Stability: sorting does not reorder the entries of one key. -/
theorem filter_mergeSort (l : List α) (k : κ) :
    (l.mergeSort fun a b => (cmp (key a) (key b)).isLE).filter (fun a => cmp (key a) k == .eq)
      = l.filter (fun a => cmp (key a) k == .eq) := by
  have hpw : (l.filter (fun a => cmp (key a) k == .eq)).Pairwise
      (fun a b => (cmp (key a) (key b)).isLE = true) := by
    rw [List.pairwise_iff_forall_sublist]
    intro a b hab
    have ha : a ∈ l.filter (fun a => cmp (key a) k == .eq) := hab.subset (by simp)
    have hb : b ∈ l.filter (fun a => cmp (key a) k == .eq) := hab.subset (by simp)
    simp at ha hb
    have : cmp (key a) (key b) = .eq :=
      Std.TransCmp.eq_trans ha.2 (Std.OrientedCmp.eq_symm hb.2)
    simp [this]
  have hs := List.sublist_mergeSort (btree_le_trans cmp key) (btree_le_total cmp key) hpw
    (xs := l) List.filter_sublist
  have hs2 := hs.filter (fun a => cmp (key a) k == .eq)
  rw [List.filter_filter] at hs2
  simp only [Bool.and_self] at hs2
  symm
  apply hs2.eq_of_length
  exact ((List.mergeSort_perm l _).filter _).length_eq.symm

theorem dedupLast_find (l : List α) (k : κ)
    (h : l.Pairwise fun a b => (cmp (key a) (key b)).isLE = true) :
    (dedupLast cmp key l).find? (fun a => cmp (key a) k == .eq)
      = (l.filter (fun a => cmp (key a) k == .eq)).getLast? := by
  induction l with
  | nil => rfl
  | cons a l ih =>
    cases l with
    | nil =>
      simp only [dedupLast, List.find?_cons, List.filter_cons]
      cases hc : (cmp (key a) k == .eq) <;> simp
    | cons b l =>
      have h' := List.pairwise_cons.1 h
      rw [dedupLast]
      split
      · rename_i he
        rw [ih h'.2, List.filter_cons (x := a)]
        split
        · rename_i ha
          simp only [beq_iff_eq] at ha
          have hb : cmp (key b) k = .eq :=
            Std.TransCmp.eq_trans (Std.OrientedCmp.eq_symm he) ha
          rw [List.filter_cons_of_pos (by simp [hb])]
          simp [List.getLast?_cons]
        · rfl
      · rename_i hne
        have hab : cmp (key a) (key b) = .lt := by
          have := h'.1 b (by simp)
          cases hc : cmp (key a) (key b) <;> simp_all
        rw [List.find?_cons, List.filter_cons (x := a)]
        cases hc : (cmp (key a) k == .eq) with
        | false => simpa using ih h'.2
        | true =>
          simp only [beq_iff_eq] at hc
          have hnil : (b :: l).filter (fun a => cmp (key a) k == .eq) = [] := by
            rw [List.filter_eq_nil_iff]
            intro x hx hxe
            simp only [beq_iff_eq] at hxe
            have hbx : (cmp (key b) (key x)).isLE = true := by
              rcases List.mem_cons.1 hx with rfl | hx'
              · simp [Std.ReflCmp.compare_self (cmp := cmp)]
              · exact (List.pairwise_cons.1 h'.2).1 x hx'
            have h1 := Std.TransCmp.lt_of_lt_of_isLE hab hbx
            have h2 : cmp (key a) (key x) = .eq :=
              Std.TransCmp.eq_trans hc (Std.OrientedCmp.eq_symm hxe)
            rw [h1] at h2
            cases h2
          simp [hnil]

/-- The entry of a key in the built tree is its last occurrence in the input. -/
theorem btreeBuild_find (l : List α) (k : κ) :
    (btreeBuild cmp key l).find? (fun a => cmp (key a) k == .eq)
      = (l.filter (fun a => cmp (key a) k == .eq)).getLast? := by
  rw [btreeBuild, dedupLast_find, filter_mergeSort]
  exact List.pairwise_mergeSort (btree_le_trans cmp key) (btree_le_total cmp key) l

end BTree

theorem btreeMapC_lawful (cfg : Cfg) {cap : Nat → Bool}
    (hmono : ∀ m n, m ≤ n → cap n = true → cap m = true) (cmp : κ → κ → Ordering) [Std.TransCmp cmp]
    {k : Codec κ} {v : Codec ν} (hk : k.Lawful) (hv : v.Lawful) :
    (btreeMapC cfg cap cmp k v).Lawful :=
  collC_lawful cfg hmono (pairC_lawful hk hv) (fun l h => btreeBuild_fix cmp Prod.fst l h)
    (fun l => btreeBuild_strict cmp Prod.fst l)
    (fun _ h a ha => h a (btreeBuild_mem cmp Prod.fst ha)) (btreeBuild_length cmp Prod.fst)

theorem btreeSetC_lawful (cfg : Cfg) {cap : Nat → Bool}
    (hmono : ∀ m n, m ≤ n → cap n = true → cap m = true) (cmp : κ → κ → Ordering) [Std.TransCmp cmp]
    {k : Codec κ} (hk : k.Lawful) : (btreeSetC cfg cap cmp k).Lawful :=
  collC_lawful cfg hmono hk (fun l h => btreeBuild_fix cmp id l (by simpa using h))
    (fun l => by simpa using btreeBuild_strict cmp id l)
    (fun _ h a ha => h a (btreeBuild_mem cmp id ha)) (btreeBuild_length cmp id)

/-! ### Binary heaps -/

section Heap
variable (cmp : α → α → Ordering)

theorem heapPush_fix (l : List α) (x : α) (h : HeapShape cmp (l ++ [x])) :
    heapPush cmp l x = l ++ [x] := by
  rw [heapPush, siftUp]
  split
  · rfl
  · rename_i hp
    have hx : (l ++ [x])[l.length]? = some x := by simp
    have hlt : (l.length - 1) / 2 < (l ++ [x]).length := by simp; omega
    have hpar : (l ++ [x])[(l.length - 1) / 2]? = some ((l ++ [x])[(l.length - 1) / 2]) :=
      List.getElem?_eq_getElem hlt
    simp only [hx, hpar]
    rw [if_pos (h _ _ _ (by omega) hx hpar)]

theorem HeapShape.prefix {l m : List α} (h : HeapShape cmp (l ++ m)) : HeapShape cmp l := by
  intro i x p hi hx hp
  apply h i x p hi
  · rw [List.getElem?_append_left (List.getElem?_eq_some_iff.1 hx).1]; exact hx
  · rw [List.getElem?_append_left (List.getElem?_eq_some_iff.1 hp).1]; exact hp

theorem heap_foldl_fix (l : List α) : ∀ acc : List α, HeapShape cmp (acc ++ l) →
    l.foldl (heapPush cmp) acc = acc ++ l := by
  induction l with
  | nil => intro acc _; simp
  | cons x l ih =>
    intro acc h
    have h' : HeapShape cmp ((acc ++ [x]) ++ l) := by simpa using h
    rw [List.foldl_cons, heapPush_fix cmp acc x h'.prefix, ih _ h']
    simp

theorem siftUp_perm (l : List α) (pos : Nat) : (siftUp cmp l pos).Perm l := by
  induction pos using Nat.strongRecOn generalizing l with
  | ind pos ih =>
    rw [siftUp]
    split
    · exact List.Perm.refl _
    · rename_i hp
      dsimp only
      split
      · rename_i x p hx hpar
        split
        · exact List.Perm.refl _
        · refine (ih _ (by omega) _).trans ?_
          classical
          rw [List.perm_iff_count]
          intro a
          obtain ⟨h1, h1'⟩ := List.getElem?_eq_some_iff.1 hx
          obtain ⟨h2, h2'⟩ := List.getElem?_eq_some_iff.1 hpar
          have hne : (pos - 1) / 2 ≠ pos := by omega
          rw [List.count_set (by simpa using h2), List.count_set h1,
            List.getElem_set_ne (by omega), h1', h2']
          have hx0 : (x == a) = true → 0 < l.count a := by
            intro h; rw [List.count_pos_iff]; simp at h; rw [← h, ← h1']; exact List.getElem_mem _
          have hp0 : (p == a) = true → 0 < l.count a := by
            intro h; rw [List.count_pos_iff]; simp at h; rw [← h, ← h2']; exact List.getElem_mem _
          by_cases e1 : (x == a) = true <;> by_cases e2 : (p == a) = true <;> simp [e1, e2] <;>
            simp_all <;> omega
      · exact List.Perm.refl _

theorem heap_foldl_perm (l : List α) : ∀ acc : List α,
    (l.foldl (heapPush cmp) acc).Perm (acc ++ l) := by
  induction l with
  | nil => intro acc; simp
  | cons x l ih =>
    intro acc
    rw [List.foldl_cons]
    refine (ih _).trans ?_
    have := (siftUp_perm cmp (acc ++ [x]) acc.length).append_right l
    simpa [heapPush] using this

/-- Heap-shaped except possibly between `pos` and its parent. -/
def AlmostHeap (l : List α) (pos : Nat) : Prop :=
  (∀ i x p, 0 < i → i ≠ pos → l[i]? = some x → l[(i - 1) / 2]? = some p → (cmp x p).isLE = true) ∧
  (∀ i x p, 0 < i → 0 < pos → (i - 1) / 2 = pos → l[i]? = some x → l[(pos - 1) / 2]? = some p →
    (cmp x p).isLE = true)

theorem siftUp_heap [Std.TransCmp cmp] (l : List α) (pos : Nat) (hlt : pos < l.length)
    (h : AlmostHeap cmp l pos) : HeapShape cmp (siftUp cmp l pos) := by
  induction pos using Nat.strongRecOn generalizing l with
  | ind pos ih =>
    rw [siftUp]
    split
    · rename_i hp
      intro i x p hi hx hpar
      exact h.1 i x p hi (by omega) hx hpar
    · rename_i hp
      have hx : l[pos]? = some l[pos] := List.getElem?_eq_getElem hlt
      have hplt : (pos - 1) / 2 < l.length := by omega
      have hpar : l[(pos - 1) / 2]? = some l[(pos - 1) / 2] := List.getElem?_eq_getElem hplt
      generalize hxv : l[pos] = x at hx
      generalize hpv : l[(pos - 1) / 2] = p at hpar
      simp only [hx, hpar]
      split
      · rename_i hle
        intro i y q hi hy hq
        by_cases hip : i = pos
        · subst hip
          rw [hx] at hy; rw [hpar] at hq
          simp at hy hq; subst hy hq
          exact hle
        · exact h.1 i y q hi hip hy hq
      · rename_i hle
        have hpx : (cmp p x).isLE = true := by
          have := Std.OrientedCmp.eq_swap (cmp := cmp) (a := p) (b := x)
          rw [this]
          cases hc : cmp x p <;> simp_all
        have hget : ∀ i : Nat, ((l.set pos p).set ((pos - 1) / 2) x)[i]? =
            if i = (pos - 1) / 2 then some x else if i = pos then some p else l[i]? := by
          intro i
          rw [List.getElem?_set, List.getElem?_set]
          by_cases h1 : (pos - 1) / 2 = i
          · subst h1; simp [hplt]
          · by_cases h2 : pos = i
            · subst h2; simp [h1, hlt, Ne.symm h1]
            · simp [h1, h2, Ne.symm h1, Ne.symm h2]
        apply ih _ (by omega) _ (by simpa using hplt)
        constructor
        · intro i y q hi hip hy hq
          rw [hget] at hy hq
          rw [if_neg hip] at hy
          by_cases h1 : i = pos
          · subst h1
            simp at hy hq
            subst hy hq
            exact hpx
          · rw [if_neg h1] at hy
            by_cases h2 : (i - 1) / 2 = (pos - 1) / 2
            · rw [if_pos h2] at hq
              simp at hq
              subst hq
              exact Std.TransCmp.isLE_trans (h.1 i y p hi h1 hy (by rw [h2]; exact hpar)) hpx
            · rw [if_neg h2] at hq
              by_cases h3 : (i - 1) / 2 = pos
              · rw [if_pos h3] at hq
                simp at hq
                subst hq
                exact h.2 i y _ hi (by omega) h3 hy hpar
              · rw [if_neg h3] at hq
                exact h.1 i y q hi h1 hy hq
        · intro i y q hi hp0 hip hy hq
          rw [hget] at hy hq
          rw [if_neg (by omega), if_neg (by omega)] at hq
          have hpq := h.1 _ _ _ hp0 (by omega) hpar hq
          rw [if_neg (by omega)] at hy
          by_cases h1 : i = pos
          · subst h1
            simp at hy
            subst hy
            exact hpq
          · rw [if_neg h1] at hy
            exact Std.TransCmp.isLE_trans (h.1 i y p hi h1 hy (by rw [hip]; exact hpar)) hpq

theorem heapPush_heap [Std.TransCmp cmp] (l : List α) (x : α) (h : HeapShape cmp l) :
    HeapShape cmp (heapPush cmp l x) := by
  apply siftUp_heap cmp _ _ (by simp)
  constructor
  · intro i y p hi hne hy hp
    have hl : i < l.length := by
      have := (List.getElem?_eq_some_iff.1 hy).1
      simp at this
      omega
    apply h i y p hi
    · rw [List.getElem?_append_left hl] at hy; exact hy
    · rw [List.getElem?_append_left (by omega)] at hp; exact hp
  · intro i y p hi h0 hip hy hp
    have := (List.getElem?_eq_some_iff.1 hy).1
    simp at this
    omega

theorem heap_foldl_heap [Std.TransCmp cmp] (l : List α) : ∀ acc : List α, HeapShape cmp acc →
    HeapShape cmp (l.foldl (heapPush cmp) acc) := by
  induction l with
  | nil => intro acc h; exact h
  | cons x l ih => intro acc h; exact ih _ (heapPush_heap cmp acc x h)

end Heap

theorem binaryHeapC_lawful (cfg : Cfg) {cap : Nat → Bool}
    (hmono : ∀ m n, m ≤ n → cap n = true → cap m = true) (cmp : α → α → Ordering) [Std.TransCmp cmp]
    {c : Codec α} (hc : c.Lawful) : (binaryHeapC cfg cap cmp c).Lawful := by
  refine collC_lawful cfg hmono hc ?_ ?_ ?_ ?_
  · intro l h; simpa using heap_foldl_fix cmp l [] (by simpa using h)
  · intro l; exact heap_foldl_heap cmp l [] (by intro i x p _ hx; simp at hx)
  · intro l h a ha
    exact h a (by simpa using (heap_foldl_perm cmp l []).subset ha)
  · intro l; simpa using Nat.le_of_eq (heap_foldl_perm cmp l []).length_eq

theorem vectorC_lawful (cfg : Cfg) {cap : Nat → Bool}
    (hmono : ∀ m n, m ≤ n → cap n = true → cap m = true) {c : Codec α} (hc : c.Lawful) :
    (vectorC cfg cap c).Lawful :=
  collC_lawful cfg hmono hc (fun _ _ => rfl) (fun _ => trivial) (fun _ h => h) fun _ => Nat.le_refl _

/-- The element-wise list behind a collection: what the wire says, before any collection is built.
`Vec<(K, V)>` has the same wire format as the maps. -/
theorem coll_wire (cfg : Cfg) {c : Codec α} {cap : Nat → Bool} {inv build} {s r : Bytes} {m : List α}
    (h : (collC cfg cap c inv build).dec s = .ok (m, r)) :
    ∃ l, (vecC cfg cap c).dec s = .ok (l, r) ∧ m = build l := by
  simp only [collC, readColl] at h
  obtain ⟨n, r1, h1, h2⟩ := Rd.bind_ok.1 h
  cases hc : cap n with
  | false => simp [hc, Rd.alloc, Rd.bind_run] at h2
  | true =>
    rw [hc, Rd.alloc_true, Rd.pure_bind] at h2
    obtain ⟨l, r2, h3, h4⟩ := Rd.bind_ok.1 h2
    simp at h4
    obtain ⟨rfl, rfl⟩ := h4
    refine ⟨l, ?_, rfl⟩
    simp only [vecC]
    rw [Rd.bind_of_ok h1]
    by_cases h0 : n = 0
    · subst h0
      rw [if_pos rfl]
      simpa [Rd.readN] using h3
    · rw [if_neg h0, hc]
      exact h3

theorem coll_of_wire (cfg : Cfg) {c : Codec α} {cap : Nat → Bool} {inv build} {s r : Bytes} {l : List α}
    (hcap : cap 0 = true) (h : (vecC cfg cap c).dec s = .ok (l, r)) :
    (collC cfg cap c inv build).dec s = .ok (build l, r) := by
  simp only [vecC] at h
  obtain ⟨n, r1, h1, h2⟩ := Rd.bind_ok.1 h
  simp only [collC, readColl]
  rw [Rd.bind_of_ok h1]
  by_cases h0 : n = 0
  · subst h0
    simp at h2
    obtain ⟨rfl, rfl⟩ := h2
    simp [hcap, Rd.readN]
  · rw [if_neg h0] at h2
    cases hc : cap n with
    | false => simp [hc, Rd.alloc, Rd.bind_run] at h2
    | true =>
      rw [hc, Rd.alloc_true, Rd.pure_bind] at h2
      rw [Rd.alloc_true, Rd.pure_bind, Rd.bind_of_ok h2]
      rfl

end Revision
