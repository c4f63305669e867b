import Verif.Proofs.Reads

/-! Helper lemmas: indexed collections written by one program and read by another. -/

namespace Revision

section
variable {o : Codec α} {n : Codec β} {mig : α → Option β} {o' : Codec γ} {n' : Codec δ} {mig' : γ → Option δ}

theorem encList_of_encEach {f : α → Res Bytes} : ∀ {l : List α} {bs}, encEach f l = .ok bs →
    encList f l = .ok bs.flatten
  | [], bs, h => by cases h; rfl
  | a :: l, bs, h => by
    obtain ⟨b, bs', rfl, hb, hbs⟩ := encEach_cons.1 h
    show (f a >>= fun x => encList f l >>= fun y => pure (x ++ y)) = _
    rw [hb, Res.ok_bind, encList_of_encEach hbs]
    rfl

theorem bytes_of_ok {a : α} {b : Bytes} (h : o.enc a = .ok b) : o.bytes a = b := by
  unfold Codec.bytes; rw [h]; rfl

theorem encEach_bytes {f : α → Res β} {g : α → β} : ∀ {l : List α} {bs}, (∀ a b, f a = .ok b → g a = b) →
    encEach f l = .ok bs → bs = l.map g ∧ ∀ a ∈ l, f a = .ok (g a)
  | [], bs, _, h => by cases h; exact ⟨rfl, fun a ha => by cases ha⟩
  | a :: l, bs, hg, h => by
    obtain ⟨b, bs', rfl, hb, hbs⟩ := encEach_cons.1 h
    obtain ⟨h1, h2⟩ := encEach_bytes hg hbs
    have := hg a b hb
    subst this
    refine ⟨by rw [h1]; rfl, fun x hx => ?_⟩
    rcases List.mem_cons.1 hx with rfl | hx
    · exact hb
    · exact h2 x hx

theorem encEach_of_bytes {f : α → Res β} {g : α → β} : ∀ {l : List α}, (∀ a ∈ l, f a = .ok (g a)) →
    encEach f l = .ok (l.map g)
  | [], _ => rfl
  | a :: l, h => encEach_cons.2 ⟨_, _, rfl, h a List.mem_cons_self,
      encEach_of_bytes fun x hx => h x (List.mem_cons_of_mem _ hx)⟩

/-- A set is written as the list of its elements in byte order. -/
theorem serializeIndexedSet_bytes {l : List α} {b : Bytes} (h : serializeIndexedSet o.enc l = .ok b) :
    ∃ bs, encEach o.enc (byBytes o id l) = .ok bs ∧ writeSeqBodies bs = .ok b := by
  obtain ⟨bs, h1, h2⟩ := Res.bind_eq_ok.1 h
  obtain ⟨e1, e2⟩ := encEach_bytes (g := o.bytes) (fun a b => bytes_of_ok) h1
  have hs : (bs.mergeSort fun a b => (cmpBytes a b).isLE) = (byBytes o id l).map o.bytes := by
    rw [e1]
    exact (List.map_mergeSort (s := fun a b => (cmpBytes a b).isLE) (f := o.bytes) fun a _ b _ => rfl).symm
  rw [hs] at h2
  refine ⟨_, encEach_of_bytes fun a ha => e2 a ?_, h2⟩
  exact (List.mergeSort_perm l _).mem_iff.1 ha

/-- A map is written as the list of its entries in byte order of the keys. -/
theorem serializeIndexedEntries_bytes {l : List (α × γ)} {b : Bytes}
    (h : serializeIndexedEntries o.enc o'.enc l = .ok b) :
    ∃ ps, encEach (encPair o.enc o'.enc) (byBytes o Prod.fst l) = .ok ps ∧ writeMapPairs ps = .ok b := by
  obtain ⟨ps, h1, h2⟩ := Res.bind_eq_ok.1 h
  obtain ⟨e1, e2⟩ := encEach_bytes (g := fun e : α × γ => (o.bytes e.1, o'.bytes e.2)) (fun a b hb => by
    have := encPair_ok.1 hb
    rw [bytes_of_ok this.1, bytes_of_ok this.2]) h1
  have hs : (ps.mergeSort fun a b => (cmpBytes a.1 b.1).isLE) =
      (byBytes o Prod.fst l).map fun e : α × γ => (o.bytes e.1, o'.bytes e.2) := by
    rw [e1]
    exact (List.map_mergeSort (s := fun a b : Bytes × Bytes => (cmpBytes a.1 b.1).isLE)
      (f := fun e : α × γ => (o.bytes e.1, o'.bytes e.2)) fun a _ b _ => rfl).symm
  rw [hs] at h2
  refine ⟨_, encEach_of_bytes fun a ha => e2 a ?_, h2⟩
  exact (List.mergeSort_perm l _).mem_iff.1 ha

theorem mem_byBytes {c : Codec κ} {key : α → κ} {l : List α} {a : α} : a ∈ byBytes c key l ↔ a ∈ l :=
  (List.mergeSort_perm l _).mem_iff

theorem byBytes_length {c : Codec κ} {key : α → κ} {l : List α} : (byBytes c key l).length = l.length :=
  (List.mergeSort_perm l _).length_eq

theorem readIndexedSeq_reads (h : o.Reads w n mig) {l : List α} {bs b} {cap : Nat → Bool}
    (hv : ∀ a ∈ l, o.valid a) (hbs : encEach o.enc l = .ok bs) (hw : writeSeqBodies bs = .ok b)
    (hn : l.length < 2 ^ 60) (hcap : cap l.length = true) (t : Bytes) :
    (readIndexedSeq cap n.dec (b ++ t)).ok? = (migrateAll mig l).map (·, t) := by
  have hl := encEach_length hbs
  have key := readN_reads h.dec l bs.flatten hv (encList_of_encEach hbs) t
  rcases writeSeqBodies_ok hw with ⟨_, rfl⟩ | ⟨_, os, last, ho, rfl⟩
  · rw [List.cons_append, List.append_assoc, hl]
    unfold readIndexedSeq
    rw [Rd.bind_of_ok (Rd.readByte_cons _ _), Rd.bind_of_ok (readVarint_write _ (by omega) _),
      if_pos (by decide), hcap, Rd.alloc_true, Rd.pure_bind]
    exact key
  · have hol := seqOffsets_length ho
    rw [List.cons_append, List.append_assoc, List.append_assoc, hl]
    unfold readIndexedSeq
    have hm : checkedMul l.length 4 .overrun = .ok (l.length * 4) := by
      unfold checkedMul; rw [if_pos (by omega)]
    rw [Rd.bind_of_ok (Rd.readByte_cons _ _), Rd.bind_of_ok (readVarint_write _ (by omega) _),
      if_neg (by decide), hm, Rd.lift_ok, Rd.pure_bind,
      Rd.bind_of_ok (Rd.advance_append (tbl os) _ _ (by rw [tbl_length]; omega)), hcap,
      Rd.alloc_true, Rd.pure_bind]
    exact key

/-- Migrating keys and values separately and pairing them up again. -/
theorem migrateAll_pair (f : α → Option β) (g : γ → Option δ) : ∀ (l : List (α × γ)),
    migrateAll (migratePair f g) l =
      (migrateAll f (l.map Prod.fst)).bind fun ks => (migrateAll g (l.map Prod.snd)).map fun vs => ks.zip vs
  | [] => rfl
  | e :: l => by
    simp only [migrateAll, List.map_cons, migratePair, migrateAll_pair f g l]
    cases f e.1 with
    | none => rfl
    | some a =>
      cases g e.2 with
      | none =>
        simp only [Option.bind_eq_bind, Option.bind_some, Option.bind_none]
        cases migrateAll f (l.map Prod.fst) <;> rfl
      | some b =>
        cases migrateAll f (l.map Prod.fst) with
        | none => rfl
        | some ks => cases migrateAll g (l.map Prod.snd) <;> rfl

theorem readIndexedMap_reads (h : o.Reads w n mig) (h' : o'.Reads w n' mig') {l : List (α × γ)} {ps b}
    {pre capK capV : Nat → Bool} {build : List (β × δ) → List (β × δ)}
    (hv : ∀ e ∈ l, o.valid e.1 ∧ o'.valid e.2)
    (hps : encEach (encPair o.enc o'.enc) l = .ok ps) (hw : writeMapPairs ps = .ok b)
    (hn : l.length < 2 ^ 60) (hpre : pre l.length = true) (hcK : capK l.length = true)
    (hcV : capV l.length = true) (t : Bytes) :
    (readIndexedMap pre capK capV n.dec n'.dec build (b ++ t)).ok? =
      ((migrateAll (migratePair mig mig') l).map build).map (·, t) := by
  have hl := encEach_length hps
  obtain ⟨h1, h2, h3⟩ := encEach_pairs hps
  rcases writeMapPairs_ok hw with ⟨_, rfl⟩ | ⟨_, os, kl, vl, ho, rfl⟩
  · rw [List.cons_append, List.append_assoc, hl]
    unfold readIndexedMap
    have hb : encList (pairC o o').enc l = .ok (ps.map fun p => p.1 ++ p.2).flatten := by
      refine encList_of_encEach (f := (pairC o o').enc) ?_
      rw [← h3]
      refine congrFun (congrArg encEach (funext fun e => ?_)) l
      simp only [pairC, encPair]
      cases o.enc e.1 with
      | err _ => rfl
      | panic => rfl
      | ok _ => cases o'.enc e.2 <;> rfl
    have key := readN_reads (o := pairC o o') (rd := (pairC n n').dec) (pairC_reads h h').dec l _ hv hb t
    rw [Rd.bind_of_ok (Rd.readByte_cons _ _), Rd.bind_of_ok (readVarint_write _ (by omega) _), hpre,
      Rd.alloc_true, Rd.pure_bind, if_pos (by decide)]
    exact Rd.bind_map_ok? key
  · have hol := mapOffsets_length ho
    rw [List.cons_append, List.append_assoc, List.append_assoc, hl]
    unfold readIndexedMap
    have hm : checkedMul l.length 8 .overrun = .ok (l.length * 8) := by
      unfold checkedMul; rw [if_pos (by omega)]
    have ha : addU (l.length * 8) 8 = .ok (l.length * 8 + 8) := by
      unfold addU; rw [if_pos (by omega)]
    rw [Rd.bind_of_ok (Rd.readByte_cons _ _), Rd.bind_of_ok (readVarint_write _ (by omega) _), hpre,
      Rd.alloc_true, Rd.pure_bind, if_neg (by decide), hm, Rd.lift_ok, Rd.pure_bind, ha, Rd.lift_ok,
      Rd.pure_bind]
    have e : (List.map (fun o : Nat × Nat => leBytes 4 o.1 ++ leBytes 4 o.2) os).flatten ++
        (leBytes 4 kl ++ (leBytes 4 vl ++ ((ps.map Prod.fst).flatten ++
          (ps.map Prod.snd).flatten)) ++ t) =
        ((List.map (fun o : Nat × Nat => leBytes 4 o.1 ++ leBytes 4 o.2) os).flatten ++
          (leBytes 4 kl ++ leBytes 4 vl)) ++
        ((ps.map Prod.fst).flatten ++ ((ps.map Prod.snd).flatten ++ t)) := by
      simp only [List.append_assoc]
    have hk' := readN_reads h.dec (l.map Prod.fst) _ (by
        intro a ha
        obtain ⟨e, he, rfl⟩ := List.mem_map.1 ha
        exact (hv e he).1) (encList_of_encEach h1) ((ps.map Prod.snd).flatten ++ t)
    have hv' := readN_reads h'.dec (l.map Prod.snd) _ (by
        intro a ha
        obtain ⟨e, he, rfl⟩ := List.mem_map.1 ha
        exact (hv e he).2) (encList_of_encEach h2) t
    rw [List.length_map] at hk' hv'
    rw [e, Rd.bind_of_ok (Rd.advance_append _ _ _ (by
      simp only [List.length_append, pairTable_length, leBytes_length]; omega)), hcK,
      Rd.alloc_true, Rd.pure_bind, Rd.bind_ok? hk', migrateAll_pair]
    cases migrateAll mig (l.map Prod.fst) with
    | none => rfl
    | some ks =>
      simp only [Option.bind_some]
      rw [hcV, Rd.alloc_true, Rd.pure_bind, Rd.bind_map_ok? hv']
      cases migrateAll mig' (l.map Prod.snd) <;> rfl

theorem skipIndexedSeq_reads {k : Rd Unit}
    (h : ∀ v b, o.valid v → o.enc v = .ok b → ∀ t, Lands w (k (b ++ t)) t) {l : List α} {bs b}
    (hv : ∀ a ∈ l, o.valid a) (hs : SmallEach o.enc l) (hbs : encEach o.enc l = .ok bs)
    (hw : writeSeqBodies bs = .ok b) (hn : l.length < 2 ^ 60) (t : Bytes) :
    Lands w (skipIndexedSeq k (b ++ t)) t := by
  refine skipIndexedSeq_lands (fun a ha b hb t => h _ _ (hv a ha) hb t) hbs hw hn ?_ t
  intro x hx
  obtain ⟨a, ha, e⟩ := (encEach_mem hbs x).1 hx
  exact hs a ha x e

theorem skipIndexedMap_reads {k k' : Rd Unit}
    (h : ∀ v b, o.valid v → o.enc v = .ok b → ∀ t, Lands w (k (b ++ t)) t)
    (h' : ∀ v b, o'.valid v → o'.enc v = .ok b → ∀ t, Lands w (k' (b ++ t)) t) {l : List (α × γ)} {ps b}
    (hv : ∀ e ∈ l, o.valid e.1 ∧ o'.valid e.2) (hs : SmallPairs o.enc o'.enc l)
    (hps : encEach (encPair o.enc o'.enc) l = .ok ps) (hw : writeMapPairs ps = .ok b)
    (hn : l.length < 2 ^ 60) (t : Bytes) : Lands w (skipIndexedMap k k' (b ++ t)) t := by
  refine skipIndexedMap_lands (fun e he b hb t => h _ _ (hv e he).1 hb t)
    (fun e he b hb t => h' _ _ (hv e he).2 hb t) hps hw hn ?_ t
  intro p hx
  obtain ⟨e, hm, x⟩ := (encEach_mem hps p).1 hx
  have := encPair_ok.1 x
  exact ⟨(hs e hm).1 _ this.1, (hs e hm).2 _ this.2⟩

theorem indexedSeqC_reads {cap cap' : Nat → Bool} (hcap : ∀ k, cap k = true → cap' k = true)
    (h : o.Reads w n mig) : (indexedSeqC cap o).Reads w (indexedSeqC cap' n) (migrateAll mig) := by
  have dec : ∀ v b, (indexedSeqC cap o).valid v → (indexedSeqC cap o).enc v = .ok b → ∀ t,
      ((indexedSeqC cap' n).dec (b ++ t)).ok? = (migrateAll mig v).map (·, t) := by
    rintro l b ⟨h1, h2, h3, _⟩ hb t
    obtain ⟨bs, e1, e2⟩ := Res.bind_eq_ok.1 hb
    exact readIndexedSeq_reads h h3 e1 e2 (by omega) (hcap _ h2) t
  refine ⟨dec, ?_, ?_, fun v b hv hb t => Rd.ok?_discard (dec v b hv hb t)⟩
  · rintro l b ⟨h1, _, h3, h4⟩ hb t
    obtain ⟨bs, e1, e2⟩ := Res.bind_eq_ok.1 hb
    exact skipIndexedSeq_reads h.skip h3 h4 e1 e2 (by omega) t
  · rintro l b ⟨h1, _, h3, h4⟩ hb t
    obtain ⟨bs, e1, e2⟩ := Res.bind_eq_ok.1 hb
    exact skipIndexedSeq_reads h.skip h3 h4 e1 e2 (by omega) t

theorem indexedSet_reads {cap' : Nat → Bool} (h : o.Reads w n mig) {l : List α} {b : Bytes}
    (h1 : l.length < 2 ^ 56) (hcap : cap' l.length = true) (h3 : ∀ a ∈ l, o.valid a)
    (h4 : SmallEach o.enc l) (hb : serializeIndexedSet o.enc l = .ok b) (t : Bytes) :
    (readIndexedSeq cap' n.dec (b ++ t)).ok? = (migrateAll mig (byBytes o id l)).map (·, t) ∧
      Lands w (skipIndexedSeq n.skip (b ++ t)) t := by
  obtain ⟨bs, e1, e2⟩ := serializeIndexedSet_bytes hb
  have hl : (byBytes o id l).length = l.length := byBytes_length
  refine ⟨readIndexedSeq_reads h (fun a ha => h3 a (mem_byBytes.1 ha)) e1 e2 (by omega)
    (by rw [hl]; exact hcap) t, ?_⟩
  exact skipIndexedSeq_reads h.skip (fun a ha => h3 a (mem_byBytes.1 ha))
    (fun a ha => h4 a (mem_byBytes.1 ha)) e1 e2 (by omega) t

theorem indexedBTreeSetC_reads {cap cap' : Nat → Bool} (hcap : ∀ k, cap k = true → cap' k = true)
    (h : o.Reads w n mig) (cmp : α → α → Ordering) (cmp' : β → β → Ordering) :
    (indexedBTreeSetC cap cmp o).Reads w (indexedBTreeSetC cap' cmp' n)
      (fun l => (migrateAll mig (byBytes o id l)).map (btreeBuild cmp' id)) where
  dec := by
    rintro l b ⟨h1, h2, h3, h4, _⟩ hb t
    exact Rd.bind_map_ok? (indexedSet_reads h h1 (hcap _ h2) h3 h4 hb t).1
  skip := by
    rintro l b ⟨h1, h2, h3, h4, _⟩ hb t
    exact (indexedSet_reads h h1 (hcap _ h2) h3 h4 hb t).2
  skipS := by
    rintro l b ⟨h1, h2, h3, h4, _⟩ hb t
    exact (indexedSet_reads h h1 (hcap _ h2) h3 h4 hb t).2
  check := by
    rintro l b ⟨h1, h2, h3, h4, _⟩ hb t
    have := Rd.ok?_discard (indexedSet_reads h h1 (hcap _ h2) h3 h4 hb t).1
    exact this.trans (by cases migrateAll mig (byBytes o id l) <;> rfl)

theorem indexedHashSetC_reads {cap cap' : Nat → Bool} (hcap : ∀ k, cap k = true → cap' k = true)
    (h : o.Reads w n mig) (eq : α → α → Bool) (eq' : β → β → Bool) :
    (indexedHashSetC cap eq o).Reads w (indexedHashSetC cap' eq' n)
      (fun l => (migrateAll mig (byBytes o id l)).map (·.foldl (hashSetInsert eq') [])) where
  dec := by
    rintro l b ⟨h1, h2, h3, h4, _⟩ hb t
    exact Rd.bind_map_ok? (indexedSet_reads h h1 (hcap _ h2) h3 h4 hb t).1
  skip := by
    rintro l b ⟨h1, h2, h3, h4, _⟩ hb t
    exact (indexedSet_reads h h1 (hcap _ h2) h3 h4 hb t).2
  skipS := by
    rintro l b ⟨h1, h2, h3, h4, _⟩ hb t
    exact (indexedSet_reads h h1 (hcap _ h2) h3 h4 hb t).2
  check := by
    rintro l b ⟨h1, h2, h3, h4, _⟩ hb t
    have := Rd.ok?_discard (indexedSet_reads h h1 (hcap _ h2) h3 h4 hb t).1
    exact this.trans (by cases migrateAll mig (byBytes o id l) <;> rfl)

theorem indexedMap_reads {pre' capK' capV' : Nat → Bool} {build : List (β × δ) → List (β × δ)}
    (h : o.Reads w n mig) (h' : o'.Reads w n' mig') {l : List (α × γ)} {b : Bytes} (h1 : l.length < 2 ^ 56)
    (hpre : pre' l.length = true) (hcK : capK' l.length = true) (hcV : capV' l.length = true)
    (h3 : ∀ e ∈ l, o.valid e.1 ∧ o'.valid e.2) (h4 : SmallPairs o.enc o'.enc l)
    (hb : serializeIndexedEntries o.enc o'.enc l = .ok b) (t : Bytes) :
    (readIndexedMap pre' capK' capV' n.dec n'.dec build (b ++ t)).ok? =
        ((migrateAll (migratePair mig mig') (byBytes o Prod.fst l)).map build).map (·, t) ∧
      Lands w (skipIndexedMap n.skip n'.skip (b ++ t)) t := by
  obtain ⟨ps, e1, e2⟩ := serializeIndexedEntries_bytes hb
  have hl : (byBytes o Prod.fst l).length = l.length := byBytes_length
  refine ⟨readIndexedMap_reads h h' (fun a ha => h3 a (mem_byBytes.1 ha)) e1 e2 (by omega)
    (by rw [hl]; exact hpre) (by rw [hl]; exact hcK) (by rw [hl]; exact hcV) t, ?_⟩
  exact skipIndexedMap_reads h.skip h'.skip (fun a ha => h3 a (mem_byBytes.1 ha))
    (fun a ha => h4 a (mem_byBytes.1 ha)) e1 e2 (by omega) t

theorem indexedBTreeMapC_reads {capK capV capK' capV' : Nat → Bool} (hK : ∀ k, capK k = true → capK' k = true)
    (hV : ∀ k, capV k = true → capV' k = true) (h : o.Reads w n mig) (h' : o'.Reads w n' mig')
    (cmp : α → α → Ordering) (cmp' : β → β → Ordering) :
    (indexedBTreeMapC capK capV cmp o o').Reads w (indexedBTreeMapC capK' capV' cmp' n n')
      (fun l => (migrateAll (migratePair mig mig') (byBytes o Prod.fst l)).map
        (·.foldl (btreeInsert cmp') [])) where
  dec := by
    rintro l b ⟨h1, h2, h3, h4, h5, _⟩ hb t
    exact (indexedMap_reads h h' h1 rfl (hK _ h2) (hV _ h3) h4 h5 hb t).1
  skip := by
    rintro l b ⟨h1, h2, h3, h4, h5, _⟩ hb t
    exact (indexedMap_reads (build := id) h h' h1 rfl (hK _ h2) (hV _ h3) h4 h5 hb t (pre' := fun _ => true)).2
  skipS := by
    rintro l b ⟨h1, h2, h3, h4, h5, _⟩ hb t
    exact (indexedMap_reads (build := id) h h' h1 rfl (hK _ h2) (hV _ h3) h4 h5 hb t (pre' := fun _ => true)).2
  check := by
    rintro l b ⟨h1, h2, h3, h4, h5, _⟩ hb t
    exact Rd.ok?_discard (indexedMap_reads h h' h1 rfl (hK _ h2) (hV _ h3) h4 h5 hb t).1

theorem indexedHashMapC_reads {pre capK capV pre' capK' capV' : Nat → Bool}
    (hP : ∀ k, pre k = true → pre' k = true) (hK : ∀ k, capK k = true → capK' k = true)
    (hV : ∀ k, capV k = true → capV' k = true) (h : o.Reads w n mig) (h' : o'.Reads w n' mig')
    (eq : α → α → Bool) (eq' : β → β → Bool) :
    (indexedHashMapC pre capK capV eq o o').Reads w (indexedHashMapC pre' capK' capV' eq' n n')
      (fun l => (migrateAll (migratePair mig mig') (byBytes o Prod.fst l)).map
        (·.foldl (hashInsert eq') [])) where
  dec := by
    rintro l b ⟨h1, h0, h2, h3, h4, h5, _⟩ hb t
    exact (indexedMap_reads h h' h1 (hP _ h0) (hK _ h2) (hV _ h3) h4 h5 hb t).1
  skip := by
    rintro l b ⟨h1, h0, h2, h3, h4, h5, _⟩ hb t
    exact (indexedMap_reads (build := id) h h' h1 (hP _ h0) (hK _ h2) (hV _ h3) h4 h5 hb t).2
  skipS := by
    rintro l b ⟨h1, h0, h2, h3, h4, h5, _⟩ hb t
    exact (indexedMap_reads (build := id) h h' h1 (hP _ h0) (hK _ h2) (hV _ h3) h4 h5 hb t).2
  check := by
    rintro l b ⟨h1, h0, h2, h3, h4, h5, _⟩ hb t
    exact Rd.ok?_discard (indexedMap_reads h h' h1 (hP _ h0) (hK _ h2) (hV _ h3) h4 h5 hb t).1

end

/-! ### The supported types -/

section
variable {ι : Type} {E E' : Env ι}

/-- The reader's allocator grants what the writer's does. -/
def Env.CapLe (E E' : Env ι) : Prop := ∀ t k, E.cap t k = true → E'.cap t k = true

theorem migrateAll_some : ∀ (l : List α), migrateAll some l = some l
  | [] => rfl
  | a :: l => by simp [migrateAll, migrateAll_some l]

theorem vecOf_reads (cfg : Cfg) (hcap : E.CapLe E') (g) (t : Ty ι) {o n}
    (h : Codec.Reads o w n (t.migrate E E' g)) :
    (vecOf cfg E t o).Reads w (vecOf cfg E' t n) (migrateAll (t.migrate E E' g)) := by
  have hv := vecC_reads cfg (hcap t) h
  cases t <;> simp only [vecOf] <;> try exact hv
  case bool =>
    split
    · refine Codec.Reads.mono (m := some) (Codec.Faithful.reads_of ((boolsC_lawful cfg _).faithful (boolsC_checks cfg _)) (by rfl) ?_) ?_
      · rintro v ⟨h1, h2⟩; exact ⟨h1, fun hne => ⟨hcap _ _ (h2 hne).1, hcap _ _ (h2 hne).2⟩⟩
      · intro v _; exact (migrateAll_some v).symm
    · exact hv
  case int k =>
    split
    · refine Codec.Reads.mono (m := some) (Codec.Faithful.reads_of ((bulkC_lawful cfg _ k.bits_eight).faithful (bulkC_checks cfg _ _ _)) (by rfl) ?_) ?_
      · rintro v ⟨h1, h2, h3⟩; exact ⟨h1, h2, fun hne => hcap _ _ (h3 hne)⟩
      · intro v _; exact (migrateAll_some v).symm
    · exact hv
  case float f =>
    split
    · refine Codec.Reads.mono (m := some) (Codec.Faithful.reads_of ((bulkC_lawful cfg _ rfl).faithful (bulkC_checks cfg _ _ _)) (by rfl) ?_) ?_
      · rintro v ⟨h1, h2, h3⟩; exact ⟨h1, h2, fun hne => hcap _ _ (h3 hne)⟩
      · intro v _; exact (migrateAll_some v).symm
    · exact hv
  case uuid =>
    split
    · refine Codec.Reads.mono (m := some) (Codec.Faithful.reads_of ((bulkC_lawful cfg _ (W := 128) (w := 16) rfl).faithful (bulkC_checks cfg _ _ _)) (by rfl) ?_) ?_
      · rintro v ⟨h1, h2, h3⟩; exact ⟨h1, h2, fun hne => hcap _ _ (h3 hne)⟩
      · intro v _; exact (migrateAll_some v).symm
    · exact hv

theorem bytesFit_mono {cap cap' : Nat → Bool} (hcap : ∀ k, cap k = true → cap' k = true) {b : Bytes}
    (h : bytesFit cap b) : bytesFit cap' b := ⟨h.1, fun hne => hcap _ (h.2 hne)⟩

theorem Ty.codec_reads (cfg : Cfg) (hcap : E.CapLe E') (g : (i : ι) → E.X i → Option (E'.X i))
    (hx : ∀ i, (E.extC i).Reads w (E'.extC i) (g i)) (t : Ty ι) :
    (t.codec cfg E).Reads w (t.codec cfg E') (t.migrate E E' g) := by
  induction t with
  | unit => exact (unitC_lawful.faithful unitC_checks).reads
  | bool => exact (boolC_lawful.faithful boolC_checks).reads
  | int k => exact ((intC_lawful cfg k).faithful (intC_checks cfg k)).reads
  | float f => exact ((floatC_lawful _).faithful (floatC_checks _)).reads
  | char => exact (charC_lawful.faithful charC_checks).reads
  | string =>
    exact ((stringC_lawful cfg _).faithful (stringC_checks cfg _)).reads_of rfl fun v h => bytesFit_mono (hcap _) h
  | path =>
    exact ((pathC_lawful cfg _).faithful (pathC_checks cfg _)).reads_of rfl
      fun v h => ⟨bytesFit_mono (hcap _) h.1, h.2⟩
  | bytes =>
    exact ((bytesC_lawful cfg _).faithful (bytesC_checks cfg _)).reads_of rfl fun v h => bytesFit_mono (hcap _) h
  | uuid => exact (uuidC_lawful.faithful uuidC_checks).reads
  | duration => exact ((durationC_lawful cfg).faithful (durationC_checks cfg)).reads
  | systemTime => exact ((systemTimeC_lawful cfg).faithful' (systemTimeC_checkLaw cfg).agree).reads
  | notNan f => exact ((notNanC_lawful _).faithful (notNanC_checks _)).reads
  | option t ih => exact optionC_reads cfg ih
  | result t e iht ihe => exact resultC_reads cfg iht ihe
  | bound t ih => exact boundC_reads cfg ih
  | wrap t ih => exact wrapC_reads ih
  | pair s t ihs iht => exact pairC_reads ihs iht
  | array k t ih => exact arrayC_reads k ih
  | vec t ih => exact vecOf_reads cfg hcap g t ih
  | btreeMap k v ihk ihv => exact collC_reads cfg (hcap _) (pairC_reads ihk ihv) _ _ _ _
  | btreeSet k ih => exact collC_reads cfg (hcap _) ih _ _ _ _
  | hashMap k v ihk ihv => exact collC_reads cfg (hcap _) (pairC_reads ihk ihv) _ _ _ _
  | hashSet k ih => exact collC_reads cfg (hcap _) ih _ _ _ _
  | binaryHeap t ih => exact collC_reads cfg (hcap _) ih _ _ _ _
  | vector t ih =>
    exact (collC_reads cfg (hcap _) ih (fun _ => True) (fun _ => True) (fun l => l) (fun l => l)).mono fun v _ => by
      simp only [Ty.migrate, id, Option.map_id']
  | ext i => exact hx i

theorem indexedOf_reads (cfg : Cfg) (hcap : E.CapLe E') (g : (i : ι) → E.X i → Option (E'.X i))
    (hx : ∀ i, (E.extC i).Reads w (E'.extC i) (g i)) (t : Ty ι) :
    (indexedOf cfg E t).Reads w (indexedOf cfg E' t) (t.migrateIndexed cfg E E' g) := by
  have hf := fun t => Ty.codec_reads cfg hcap g hx t
  cases t with
  | btreeMap k v => exact indexedBTreeMapC_reads (hcap _) (hcap _) (hf k) (hf v) _ _
  | hashMap k v => exact indexedHashMapC_reads (hcap _) (hcap _) (hcap _) (hf k) (hf v) _ _
  | vec t => exact indexedSeqC_reads (hcap _) (hf t)
  | vector t => exact indexedSeqC_reads (hcap _) (hf t)
  | btreeSet k => exact indexedBTreeSetC_reads (hcap _) (hf k) _ _
  | hashSet k => exact indexedHashSetC_reads (hcap _) (hf k) _ _
  | _ => exact hf _

theorem fixedOf_reads (cfg : Cfg) (hcap : E.CapLe E') (g : (i : ι) → E.X i → Option (E'.X i))
    (hx : ∀ i, (E.extC i).Reads w (E'.extC i) (g i)) (t : Ty ι) :
    (fixedOf cfg E t).Reads w (fixedOf cfg E' t) (t.migrate E E' g) := by
  cases t with
  | int k => exact ((fixedIntC_lawful cfg k).faithful (fixedIntC_checks cfg k)).reads
  | _ => exact Ty.codec_reads cfg hcap g hx _

theorem bulkOf_reads (cfg : Cfg) (hcap : E.CapLe E') (g : (i : ι) → E.X i → Option (E'.X i))
    (hx : ∀ i, (E.extC i).Reads w (E'.extC i) (g i)) (t : Ty ι) :
    (bulkOf cfg E t).Reads w (bulkOf cfg E' t) (t.migrate E E' g) := by
  cases t with
  | vec t => exact vecOf_reads _ hcap g t (Ty.codec_reads cfg hcap g hx t)
  | _ => exact Ty.codec_reads cfg hcap g hx _

end

end Revision
