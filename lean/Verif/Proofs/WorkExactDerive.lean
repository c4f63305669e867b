import Verif.Proofs.WorkExact
import Verif.Proofs.WorkDerive
import Verif.Proofs.ProgramFaithful

/-! Lemmas for C131: the steps that reading a serialised value of a derived type takes. -/

namespace Revision

/-! ### Indexed collections -/

theorem readN_gives_each {m : Ct α} {f : α → Res Bytes} {nodes : α → Nat} : ∀ {l : List α},
    (∀ a ∈ l, ∀ b, f a = .ok b → ∀ t, m.Gives (b ++ t) (nodes a) a t) →
    ∀ {bs}, encEach f l = .ok bs → ∀ t, (Ct.readN l.length m).Gives (bs.flatten ++ t) (l.map nodes).sum l t
  | [], _, _, hb, t => by cases hb; rfl
  | a :: l, h, _, hb, t => by
    obtain ⟨b, bs, rfl, h1, h2⟩ := encEach_cons.1 hb
    rw [List.flatten_cons, List.append_assoc]
    exact (h a List.mem_cons_self b h1 _).bind (readN_gives_each (fun a ha => h a (List.mem_cons_of_mem _ ha)) h2 t).map

theorem readIndexedSeq_gives {m : Ct α} {f : α → Res Bytes} {nodes : α → Nat} {l : List α} {bs b} {cap : Nat → Bool}
    (h : ∀ a ∈ l, ∀ b, f a = .ok b → ∀ t, m.Gives (b ++ t) (nodes a) a t)
    (hbs : encEach f l = .ok bs) (hw : writeSeqBodies bs = .ok b) (hn : l.length < 2 ^ 60)
    (hcap : cap l.length = true) (t : Bytes) : (Counted.readIndexedSeq cap m).Gives (b ++ t) (l.map nodes).sum l t := by
  have hl := encEach_length hbs
  rcases writeSeqBodies_ok hw with ⟨_, rfl⟩ | ⟨_, os, last, ho, rfl⟩
  · rw [List.cons_append, List.append_assoc, hl]
    refine (Ct.Gives.of (Rd.readByte_cons _ _)).bind0 ((Ct.Gives.of (readVarint_write _ (by omega) _)).bind0 ?_)
    exact .ofTrue (by decide) (.alloc hcap (readN_gives_each h hbs t))
  · have hol := seqOffsets_length ho
    rw [List.cons_append, List.append_assoc, List.append_assoc, hl]
    have hm : checkedMul l.length 4 .overrun = .ok (l.length * 4) := by
      unfold checkedMul; rw [if_pos (by omega)]
    refine (Ct.Gives.of (Rd.readByte_cons _ _)).bind0 ((Ct.Gives.of (readVarint_write _ (by omega) _)).bind0 ?_)
    refine .ofFalse (by decide) ((Ct.Gives.of (a := l.length * 4) (r := tbl os ++ (bs.flatten ++ t)) (by rw [hm]; rfl)).bind0 ?_)
    refine (Ct.Gives.of (Rd.advance_append (tbl os) _ _ (by rw [tbl_length]; omega))).bind0 ?_
    exact .alloc hcap (readN_gives_each h hbs t)

theorem sum_pairs {f : κ → Nat} {g : ν → Nat} : ∀ l : List (κ × ν),
    ((l.map Prod.fst).map f).sum + ((l.map Prod.snd).map g).sum = (l.map fun p => f p.1 + g p.2).sum
  | [] => rfl
  | p :: l => by
    have := sum_pairs (f := f) (g := g) l
    simp only [List.map_cons, List.sum_cons] at this ⊢
    omega

theorem readIndexedMap_gives {mk : Ct κ} {mv : Ct ν} {k : κ → Res Bytes} {v : ν → Res Bytes} {nk : κ → Nat} {nv : ν → Nat}
    {l : List (κ × ν)} {ps b} {pre capK capV : Nat → Bool} {build}
    (hk : ∀ e ∈ l, ∀ b, k e.1 = .ok b → ∀ t, mk.Gives (b ++ t) (nk e.1) e.1 t)
    (hv : ∀ e ∈ l, ∀ b, v e.2 = .ok b → ∀ t, mv.Gives (b ++ t) (nv e.2) e.2 t)
    (hps : encEach (encPair k v) l = .ok ps) (hw : writeMapPairs ps = .ok b)
    (hn : l.length < 2 ^ 60) (hpre : pre l.length = true) (hcK : capK l.length = true)
    (hcV : capV l.length = true) (t : Bytes) :
    (Counted.readIndexedMap pre capK capV mk mv build).Gives (b ++ t) (l.map fun p => nk p.1 + nv p.2).sum (build l) t := by
  have hl := encEach_length hps
  obtain ⟨h1, h2, h3⟩ := encEach_pairs hps
  rcases writeMapPairs_ok hw with ⟨_, rfl⟩ | ⟨_, os, kl, vl, ho, rfl⟩
  · rw [List.cons_append, List.append_assoc, hl]
    refine (Ct.Gives.of (Rd.readByte_cons _ _)).bind0 ((Ct.Gives.of (readVarint_write _ (by omega) _)).bind0 ?_)
    refine .alloc hpre (.ofTrue (by decide) (readN_gives_each (nodes := fun p => nk p.1 + nv p.2) ?_ h3 t).map)
    intro e he b hb t
    cases hp : encPair k v e with
    | ok p =>
      rw [hp] at hb
      obtain ⟨pk, pv⟩ := p
      have hb : b = pk ++ pv := (Res.ok.inj hb).symm
      have hp := encPair_ok.1 hp
      subst hb
      rw [List.append_assoc]
      exact (hk e he _ hp.1 _).bind (hv e he _ hp.2 _).map
    | err _ => rw [hp] at hb; cases hb
    | panic => rw [hp] at hb; cases hb
  · have hol := mapOffsets_length ho
    rw [List.cons_append, List.append_assoc, List.append_assoc, hl]
    have hm : checkedMul l.length 8 .overrun = .ok (l.length * 8) := by
      unfold checkedMul; rw [if_pos (by omega)]
    have ha : addU (l.length * 8) 8 = .ok (l.length * 8 + 8) := by
      unfold addU; rw [if_pos (by omega)]
    have e : (List.map (fun o : Nat × Nat => leBytes 4 o.1 ++ leBytes 4 o.2) os).flatten ++
        (leBytes 4 kl ++ (leBytes 4 vl ++ ((ps.map Prod.fst).flatten ++
          (ps.map Prod.snd).flatten)) ++ t) =
        ((List.map (fun o : Nat × Nat => leBytes 4 o.1 ++ leBytes 4 o.2) os).flatten ++
          (leBytes 4 kl ++ leBytes 4 vl)) ++
        ((ps.map Prod.fst).flatten ++ ((ps.map Prod.snd).flatten ++ t)) := by
      simp only [List.append_assoc]
    have hk' := readN_gives_each (m := mk) (l := l.map Prod.fst) (f := k) (nodes := nk) (bs := ps.map Prod.fst)
      (by
        intro a ha b hb t
        obtain ⟨e, he, rfl⟩ := List.mem_map.1 ha
        exact hk e he b hb t) h1 ((ps.map Prod.snd).flatten ++ t)
    have hv' := readN_gives_each (m := mv) (l := l.map Prod.snd) (f := v) (nodes := nv) (bs := ps.map Prod.snd)
      (by
        intro a ha b hb t
        obtain ⟨e, he, rfl⟩ := List.mem_map.1 ha
        exact hv e he b hb t) h2 t
    rw [List.length_map] at hk' hv'
    rw [e]
    refine (Ct.Gives.of (Rd.readByte_cons _ _)).bind0 ((Ct.Gives.of (readVarint_write _ (by omega) _)).bind0 ?_)
    refine .alloc hpre (.ofFalse (by decide) ?_)
    refine (Ct.Gives.of (a := l.length * 8) (r := _) (by rw [hm]; rfl)).bind0 ?_
    refine (Ct.Gives.of (a := l.length * 8 + 8) (r := _) (by rw [ha]; rfl)).bind0 ?_
    refine (Ct.Gives.of (Rd.advance_append _ _ _ (by
      simp only [List.length_append, pairTable_length, leBytes_length]; omega))).bind0 (.alloc hcK ?_)
    have ez : build ((l.map Prod.fst).zip (l.map Prod.snd)) = build l := by
      rw [← List.unzip_fst, ← List.unzip_snd, List.zip_unzip]
    rw [← ez]
    exact (hk'.bind (.alloc hcV hv'.map)).cast (sum_pairs l)

section
variable {ι : Type} {cfg : Cfg} {E : Env ι} {x : (i : ι) → Counted (E.X i)} {nx : (i : ι) → E.X i → Nat}

theorem countedFixed_follows (hE : ∀ t : Ty ι, (t.codec cfg E).Back) (hx : ∀ i, (x i).Counts (E.extC i))
    (hn : ∀ i, (x i).Follows (E.extC i) (nx i)) (t : Ty ι) :
    (countedFixed cfg E x t).Follows (fixedOf cfg E t) (t.nodes E.X nx) := by
  cases t <;> first
    | exact .leaf (fixedIntC_lawful cfg _).back
    | exact Ty.counted_follows cfg hE x hx nx hn _

theorem countedBulk_follows (hE : ∀ t : Ty ι, (t.codec cfg E).Back) (hb : ∀ t : Ty ι, (bulkOf cfg E t).Back)
    (hx : ∀ i, (x i).Counts (E.extC i)) (hn : ∀ i, (x i).Follows (E.extC i) (nx i)) (t : Ty ι) :
    (countedBulk cfg E x t).Follows (bulkOf cfg E t) (t.nodes E.X nx) := by
  cases t with
  | vec t => exact countedVec_follows ⟨cfg.fixedWidth, true⟩ nx t (Ty.counted_follows cfg hE x hx nx hn t) (hb (.vec t))
  | _ => exact Ty.counted_follows cfg hE x hx nx hn _

/-- Reading after one more step. -/
theorem Ct.Reads.call {m : Ct α} {c : Codec α} {n n' : α → Nat} (h : m.Reads c n) (e : ∀ v, n' v = 1 + n v) :
    (do Ct.tick 1; m : Ct α).Reads c n' := fun v b hv hb t => ((Ct.Gives.tick 1 _).bind (h v b hv hb t)).cast (e v).symm

theorem countedIndexed_reads (hE : ∀ t : Ty ι, (t.codec cfg E).Back) (hi : ∀ t : Ty ι, (indexedOf cfg E t).Back)
    (hx : ∀ i, (x i).Counts (E.extC i)) (hn : ∀ i, (x i).Follows (E.extC i) (nx i)) (t : Ty ι) :
    (countedIndexed cfg E x t).dec.Reads (indexedOf cfg E t) (t.nodes E.X nx) := by
  have hf := Ty.counted_follows cfg hE x hx nx hn
  have back : ∀ (t : Ty ι) {s v r}, (indexedOf cfg E t).dec s = .ok (v, r) → (countedIndexed cfg E x t).dec.erase s = .ok (v, r) :=
    fun t _ _ _ h => by rw [(countedIndexed_counts cfg E x hx t).dec]; exact h
  have map : ∀ (k v : Ty ι) {pre capK capV : Nat → Bool} {build} (l : List (k.denote E.X × v.denote E.X)) (b : Bytes),
      l.length < 2 ^ 56 → pre l.length = true → capK l.length = true → capV l.length = true →
      (∀ e ∈ l, (k.codec cfg E).valid e.1 ∧ (v.codec cfg E).valid e.2) →
      serializeIndexedEntries (k.codec cfg E).enc (v.codec cfg E).enc l = .ok b → ∀ t, ∃ l',
      (Counted.readIndexedMap pre capK capV (k.counted cfg E x).dec (v.counted cfg E x).dec build).Gives (b ++ t)
        (l.map fun p => k.nodes E.X nx p.1 + v.nodes E.X nx p.2).sum l' t := by
    intro k v pre capK capV build l b h1 h2 h3 h4 hv hb t
    obtain ⟨ps, l', _, hp, he, hw⟩ := serializeIndexedEntries_ok hb
    have hl : l'.length = l.length := hp.length_eq.symm
    refine ⟨_, (readIndexedMap_gives (fun e he b hb t => (hf k).dec _ _ (hv e (hp.mem_iff.2 he)).1 hb t)
      (fun e he b hb t => (hf v).dec _ _ (hv e (hp.mem_iff.2 he)).2 hb t) he hw (by omega) (by rw [hl]; exact h2)
      (by rw [hl]; exact h3) (by rw [hl]; exact h4) t).cast ?_⟩
    exact ((hp.map _).sum_nat).symm
  have seq : ∀ (k : Ty ι) {cap : Nat → Bool} (l l' : List (k.denote E.X)) (bs : List Bytes) (b : Bytes), l.Perm l' →
      l.length < 2 ^ 56 → cap l.length = true → (∀ a ∈ l, (k.codec cfg E).valid a) →
      encEach (k.codec cfg E).enc l' = .ok bs → writeSeqBodies bs = .ok b → ∀ t,
      (Counted.readIndexedSeq cap (k.counted cfg E x).dec).Gives (b ++ t) (l.map fun a => k.nodes E.X nx a).sum l' t := by
    intro k cap l l' bs b hp h1 h2 hv he hw t
    have hl : l'.length = l.length := hp.length_eq.symm
    refine (readIndexedSeq_gives (fun a ha b hb t => (hf k).dec _ _ (hv a (hp.mem_iff.2 ha)) hb t) he hw (by omega)
      (by rw [hl]; exact h2) t).cast ?_
    exact ((hp.map _).sum_nat).symm
  cases t with
  | btreeMap k v =>
    intro l b hv hb t
    obtain ⟨l', g⟩ := map k v (pre := fun _ => true) l b hv.1 rfl hv.2.1 hv.2.2.1 hv.2.2.2.1 hb t
    exact ((Ct.Gives.tick 1 _).bind g).become (back (.btreeMap k v) ((hi (.btreeMap k v)).round_trip l b hv hb t))
  | hashMap k v =>
    intro l b hv hb t
    obtain ⟨l', g⟩ := map k v l b hv.1 hv.2.1 hv.2.2.1 hv.2.2.2.1 hv.2.2.2.2.1 hb t
    exact ((Ct.Gives.tick 1 _).bind g).become (back (.hashMap k v) ((hi (.hashMap k v)).round_trip l b hv hb t))
  | vec k =>
    intro l b hv hb t
    obtain ⟨bs, h1, h2⟩ := Res.bind_eq_ok.1 hb
    exact (Ct.Gives.tick 1 _).bind (seq k l l bs b (.refl l) hv.1 hv.2.1 hv.2.2.1 h1 h2 t)
  | vector k =>
    intro l b hv hb t
    obtain ⟨bs, h1, h2⟩ := Res.bind_eq_ok.1 hb
    exact (Ct.Gives.tick 1 _).bind (seq k l l bs b (.refl l) hv.1 hv.2.1 hv.2.2.1 h1 h2 t)
  | btreeSet k =>
    intro l b hv hb t
    obtain ⟨bs, l', _, hp, he, hw⟩ := serializeIndexedSet_ok hb
    exact ((Ct.Gives.tick 1 _).bind (seq k l l' _ b hp hv.1 hv.2.1 hv.2.2.1 he hw t).map).become
      (back (.btreeSet k) ((hi (.btreeSet k)).round_trip l b hv hb t))
  | hashSet k =>
    intro l b hv hb t
    obtain ⟨bs, l', _, hp, he, hw⟩ := serializeIndexedSet_ok hb
    exact ((Ct.Gives.tick 1 _).bind (seq k l l' _ b hp hv.1 hv.2.1 hv.2.2.1 he hw t).map).become
      (back (.hashSet k) ((hi (.hashSet k)).round_trip l b hv hb t))
  | _ => exact (hf _).dec

end

/-! ### Derived types -/

/-- How many steps a reader takes, when what it does after its first part takes none. -/
theorem Ct.Gives.steps_tail {m : Ct α} {f : α → Ct β} {s k a r} (h : m.Gives s k a r) (hf : (f a r).1 = 0) :
    ((m >>= f) s).1 = k := by
  have h : m s = _ := h
  rw [Ct.bind_run, h]
  simp only [hf, Nat.add_zero]

theorem Ct.bind_steps_free {m : Ct α} {f : α → Ct β} {s k} (h : (m s).1 = k) (hf : ∀ a r, (f a r).1 = 0) :
    ((m >>= f) s).1 = k := by
  subst h
  rw [Ct.bind_run]
  rcases m s with ⟨k, ⟨a, r⟩ | e | _⟩
  · simp only [hf, Nat.add_zero]
  · rfl
  · rfl

theorem Ct.of_bind_of (m : Rd α) (f : α → Rd β) (s : Bytes) : ((Ct.of m >>= fun a => Ct.of (f a) : Ct β) s).1 = 0 := by
  rw [Ct.bind_run]
  show (match ((0 : Nat), m s) with
    | (k, .ok (a, r)) => (k + (Ct.of (f a) r).1, (Ct.of (f a) r).2) | (k, .err e) => (k, .err e) | (k, .panic) => (k, .panic)).1 = 0
  cases m s <;> rfl

theorem Ct.of_bind_steps {m : Rd α} {f : α → Ct β} {s a r} (h : m s = .ok (a, r)) : ((Ct.of m >>= f) s).1 = (f a r).1 := by
  have h : Ct.of m s = (0, .ok (a, r)) := congrArg (Prod.mk 0) h
  rw [Ct.bind_run, h]
  simp only [Nat.zero_add]

theorem Ct.tick_bind_steps (n : Nat) (f : Unit → Ct β) (s : Bytes) : ((Ct.tick n >>= f) s).1 = n + (f () s).1 := rfl

section
variable {V : Type} {nodes : V → Nat}

theorem countedFields_gives {live removed : CountedField V → Ct V} {c : FieldDecl V → Codec V} {r : Nat} :
    ∀ (gs : List (CountedField V)) (vs : List V) (bs : List Bytes) (env : Binds V) (t : Bytes),
    (∀ f ∈ gs, (live f).Reads (c f.decl) nodes) →
    AllValid c (aliveFields (gs.map (·.decl)) r) vs → Encodes c (aliveFields (gs.map (·.decl)) r) vs bs →
    ∃ env', (countedFields live removed r r gs env).Gives (bs.flatten ++ t) (vs.map nodes).sum env' t
  | [], vs, bs, env, t, _, _, he => by
    cases he
    exact ⟨env, .pure env t⟩
  | f :: gs, vs, bs, env, t, hl, hv, he => by
    have ih := fun vs bs env => countedFields_gives (removed := removed) (r := r) gs vs bs env t (fun g hg => hl g (List.mem_cons_of_mem _ hg))
    unfold aliveFields at hv he ih
    rw [List.map_cons] at hv he
    unfold countedFields
    by_cases ha : f.decl.existsAt r
    · rw [List.filter_cons_of_pos (by simpa using ha)] at hv he
      cases hv with
      | cons hv1 hv2 =>
      cases he with
      | cons he1 he2 =>
      rename_i v vs b bs
      rw [List.flatten_cons, List.append_assoc]
      obtain ⟨env', g⟩ := ih vs bs ((f.decl.name, v) :: env) hv2 he2
      exact ⟨env', .ofTrue (by simp [ha]) ((hl f List.mem_cons_self v b hv1 he1 _).bind g)⟩
    · rw [List.filter_cons_of_neg (by simpa using ha)] at hv he
      obtain ⟨env', g⟩ := ih vs bs env hv he
      exact ⟨env', .ofFalse (by simp [ha]) (.ofFalse (by simp [ha]) (.ofFalse (by simp [ha]) g))⟩

theorem countedStructBody_steps {live removed : CountedField V → Ct V} {c : FieldDecl V → Codec V} {r : Nat}
    (gs : List (CountedField V)) (vs : List V) (bs : List Bytes) (t : Bytes) (hl : ∀ f ∈ gs, (live f).Reads (c f.decl) nodes)
    (hv : AllValid c (aliveFields (gs.map (·.decl)) r) vs) (he : Encodes c (aliveFields (gs.map (·.decl)) r) vs bs) :
    (countedStructBody live removed r r gs (bs.flatten ++ t)).1 = (vs.map nodes).sum := by
  obtain ⟨env, g⟩ := countedFields_gives (removed := removed) gs vs bs [] t hl hv he
  exact g.steps_tail (Ct.of_bind_of _ _ _)

theorem countedStruct_steps (e : Entry) (gs : List (CountedField V)) (vs : List V) (b t : Bytes)
    (hl : ∀ f ∈ gs, (f.wire e).dec.Reads (f.decl.wire e) nodes)
    (hv : AllValid (fun f => f.wire e) (aliveFields (gs.map (·.decl)) e.revision) vs)
    (he : serializeStructBody e (gs.map (·.decl)) vs = .ok b) :
    (countedStruct e e.revision gs (b ++ t)).1 = (vs.map nodes).sum := by
  obtain ⟨bs, hbs⟩ := serializeStructBody_ok e _ vs b hv.length_eq he
  rw [serializeStructBody_encodes e _ vs bs hbs] at he
  have hrun := fun t => countedStructBody_steps (removed := fun f => f.removedDec e) gs vs bs t hl hv hbs
  unfold countedStruct
  by_cases ho : e.optimised
  · by_cases hbig : 2 ^ 32 ≤ (structPayload e bs).length
    · rw [if_pos ⟨ho, hbig⟩] at he; cases he
    · rw [if_neg (fun hc => hbig hc.2)] at he
      cases he
      simp only [if_pos ho]
      unfold structLayout
      have hrun := hrun []
      rw [List.append_nil] at hrun
      rw [if_pos ho, Ct.of_bind_steps (readLengthPrefixed_append _ (by omega) t), Ct.tick_bind_steps]
      have z : Tariff.copy * (structPayload e bs).length = 0 := Nat.zero_mul _
      rw [z, Nat.zero_add]
      by_cases hi : e.indexedStruct
      · simp only [if_pos hi]
        have htl : (offsetTable bs).length = 4 * aliveCount (gs.map (·.decl)) e.revision := by
          rw [offsetTable_eq, offsetsFrom_length, hbs.length_eq.2]; rfl
        unfold structPayload
        rw [if_pos hi, if_neg (by rw [List.length_append, htl]; omega), ← htl, List.drop_left]
        exact hrun
      · simp only [if_neg hi]
        unfold structPayload
        rw [if_neg hi]
        exact hrun
  · rw [if_neg (fun hc => ho hc.1)] at he
    cases he
    simp only [if_neg ho]
    unfold structLayout
    rw [if_neg ho]
    exact hrun t

theorem countedAlive_gives {r : Nat} : ∀ (gs : List (CountedField V)) (vs : List V) (bs : List Bytes) (t : Bytes),
    (∀ f ∈ gs, f.plain.dec.Reads f.decl.plain nodes) →
    AllValid (fun f => f.plain) (aliveFields (gs.map (·.decl)) r) vs → Encodes (fun f => f.plain) (aliveFields (gs.map (·.decl)) r) vs bs →
    (countedAlive r gs).Gives (bs.flatten ++ t) (vs.map nodes).sum vs t
  | [], vs, bs, t, _, _, he => by
    cases he
    exact .pure _ _
  | f :: gs, vs, bs, t, hl, hv, he => by
    have ih := fun vs bs => countedAlive_gives (r := r) gs vs bs t (fun g hg => hl g (List.mem_cons_of_mem _ hg))
    unfold aliveFields at hv he ih
    rw [List.map_cons] at hv he
    unfold countedAlive
    by_cases ha : f.decl.existsAt r
    · rw [List.filter_cons_of_pos (by simpa using ha)] at hv he
      cases hv with
      | cons hv1 hv2 =>
      cases he with
      | cons he1 he2 =>
      rename_i v vs b bs
      rw [List.flatten_cons, List.append_assoc]
      exact .ofTrue ha ((hl f List.mem_cons_self v b hv1 he1 _).bind (ih vs bs hv2 he2).map)
    · rw [List.filter_cons_of_neg (by simpa using ha)] at hv he
      exact .ofFalse ha (ih vs bs hv he)

theorem countedSkipFields_gives {skip : CountedField V → Ct Unit} {c : FieldDecl V → Codec V} {r : Nat} :
    ∀ (gs : List (CountedField V)) (vs : List V) (bs : List Bytes) (t : Bytes),
    (∀ f ∈ gs, (skip f).Passes (c f.decl) nodes) →
    AllValid c (aliveFields (gs.map (·.decl)) r) vs → Encodes c (aliveFields (gs.map (·.decl)) r) vs bs →
    ∃ k ≤ (vs.map nodes).sum, (countedSkipFields skip r r gs).Gives (bs.flatten ++ t) k () t
  | [], vs, bs, t, _, _, he => by
    cases he
    exact ⟨0, Nat.le_refl _, .pure _ _⟩
  | f :: gs, vs, bs, t, hl, hv, he => by
    have ih := fun vs bs => countedSkipFields_gives (r := r) gs vs bs t (fun g hg => hl g (List.mem_cons_of_mem _ hg))
    unfold aliveFields at hv he ih
    rw [List.map_cons] at hv he
    unfold countedSkipFields
    by_cases ha : f.decl.existsAt r
    · rw [List.filter_cons_of_pos (by simpa using ha)] at hv he
      cases hv with
      | cons hv1 hv2 =>
      cases he with
      | cons he1 he2 =>
      rename_i v vs b bs
      rw [List.flatten_cons, List.append_assoc]
      obtain ⟨k, hk, g⟩ := ih vs bs hv2 he2
      obtain ⟨k', hk', g'⟩ := hl f List.mem_cons_self v b hv1 he1 (bs.flatten ++ t)
      exact ⟨k' + k, by simp only [List.map_cons, List.sum_cons]; omega, .ofTrue (by simp [ha]) (g'.bind g)⟩
    · rw [List.filter_cons_of_neg (by simpa using ha)] at hv he
      obtain ⟨k, hk, g⟩ := ih vs bs hv he
      exact ⟨k, hk, .ofFalse (by simp [ha]) (.ofFalse (by simp [ha]) (.ofFalse (by simp [ha]) g))⟩

theorem Ct.Costs.none {m : Ct α} (h : m.Costs 0 0 0 false) (s : Bytes) : (m s).1 = 0 := by
  have := h.2 s
  omega

theorem countedSkipStruct_steps {adv : Nat → Rd Unit} {skip : CountedField V → Ct Unit} (e : Entry)
    (gs : List (CountedField V)) (vs : List V) (b t : Bytes)
    (hl : e.optimised = false → ∀ f ∈ gs, (skip f).Passes f.decl.legacyC nodes)
    (hv : AllValid (fun f => f.wire e) (aliveFields (gs.map (·.decl)) e.revision) vs)
    (he : serializeStructBody e (gs.map (·.decl)) vs = .ok b) :
    (countedSkipStruct adv skip e e.revision gs (b ++ t)).1 ≤ (vs.map nodes).sum := by
  unfold countedSkipStruct
  by_cases ho : e.optimised
  · rw [if_pos ho]
    refine Nat.le_trans (Nat.le_of_eq ?_) (Nat.zero_le _)
    exact Ct.of_bind_of _ _ _
  · have ho' : e.optimised = false := by simpa using ho
    have hw : (fun f : FieldDecl V => f.wire e) = fun f => f.legacyC := by
      funext f; unfold FieldDecl.wire; rw [if_neg ho]
    obtain ⟨bs, hbs⟩ := serializeStructBody_ok e _ vs b hv.length_eq he
    rw [serializeStructBody_encodes e _ vs bs hbs, if_neg (fun hc => ho hc.1)] at he
    cases he
    rw [hw] at hv hbs
    unfold structLayout
    rw [if_neg ho, if_neg ho]
    obtain ⟨k, hk, g⟩ := countedSkipFields_gives (r := e.revision) gs vs bs t (hl ho') hv hbs
    have g : countedSkipFields skip e.revision e.revision gs (bs.flatten ++ t) = _ := g
    rw [g]
    exact hk

/-- The first arm a search finds, among the counted ones. -/
theorem countedArms_find {vs : List (CountedVariant V)} {r d : Nat} {v : VariantDecl V} (p : Nat × VariantDecl V → Bool)
    (h : (variantArms (vs.map (·.decl)) r).find? p = some (d, v)) :
    ∃ w ∈ vs, w.decl = v ∧ (countedArms vs r).find? (fun a => p (a.1, a.2.decl)) = some (d, w) := by
  rw [countedArms_map, List.find?_map, Option.map_eq_some_iff] at h
  obtain ⟨⟨d', w⟩, hw, e⟩ := h
  cases e
  exact ⟨w, countedArms_mem (List.mem_of_find?_eq_some hw), rfl, hw⟩

theorem countedEnum_steps (cfg : Cfg) (e : Entry) (ws : List (CountedVariant V)) (hA : AcceptedEnum e (ws.map (·.decl)))
    (x : EnumVal V) (b t : Bytes) (hw : ∀ w ∈ ws, w.fields.map (·.decl) = w.decl.fields)
    (hl : ∀ w ∈ ws, ∀ f ∈ w.fields, (if e.optimised then f.plain else f.legacy).dec.Reads (f.decl.variantWire e) nodes)
    (hv : ValidEnum e (ws.map (·.decl)) x) (he : serializeEnumBody cfg e (ws.map (·.decl)) x = .ok b) :
    (countedEnum cfg e e.revision ws (b ++ t)).1 = (x.fields.map nodes).sum := by
  obtain ⟨d, v, hm, hi, hvf, hz⟩ := hv
  obtain ⟨i, xs⟩ := x
  simp only at hi hvf hz ⊢
  subst hi
  rw [validFields_iff] at hvf
  obtain ⟨bs, hbs, hlt, rfl⟩ := (serializeEnumBody_ok cfg e _ hA d v hm xs hvf.length_eq b).1 he
  unfold countedEnum enumLayout
  by_cases ho : e.optimised
  · have hd := hA.disc_lt_32 ho hm
    have hwp : (fun f : FieldDecl V => f.variantWire e) = fun f => f.plain := by
      funext f; unfold FieldDecl.variantWire; rw [if_pos ho]
    obtain ⟨w, hwm, rfl, hfind⟩ := countedArms_find _ (hA.find_tag ho hm)
    have hsz := ValidEnum.sizeFits (vs := ws.map (·.decl)) (x := ⟨w.decl.ident, xs⟩) ho (hz ho) bs (hwp ▸ hbs)
    have hrs : readSized (w.decl.opts.size.getD .inline) (sizedPayload (w.decl.opts.size.getD .inline) bs.flatten ++ t) = .ok (bs.flatten, t) := by
      refine readSized_run _ _ t ?_
      revert hsz
      cases hsize : w.decl.opts.size.getD .inline with
      | inline => exact id
      | fixed n => exact id
      | varlen => exact fun _ => hlt ho hsize
    rw [hwp, ← hw w hwm] at hvf hbs
    have hrun := countedAlive_gives w.fields xs bs [] (fun f hf => by
      have := hl w hwm f hf
      unfold FieldDecl.variantWire at this
      rw [if_pos ho, if_pos ho] at this
      exact this) hvf hbs
    rw [List.append_nil] at hrun
    have hrun : countedAlive e.revision w.fields bs.flatten = _ := hrun
    simp only [if_pos ho, List.cons_append]
    rw [Ct.of_bind_steps (readOptimisedTag_new hd _ _)]
    simp only [tag_variantId_new hd]
    simp only at hfind
    rw [hfind]
    simp only [countedOptimisedVariant]
    rw [Ct.of_bind_steps hrs, Ct.tick_bind_steps]
    have z : Tariff.copy * bs.flatten.length = 0 := Nat.zero_mul _
    rw [z, Nat.zero_add]
    have g : ((countedAlive e.revision w.fields).within bs.flatten).Gives t (xs.map nodes).sum xs t := by
      show (_, _) = _
      simp only [hrun]
    refine g.steps_tail ?_
    split <;> rfl
  · have hwp : (fun f : FieldDecl V => f.variantWire e) = fun f => f.legacyC := by
      funext f; unfold FieldDecl.variantWire; rw [if_neg ho]
    obtain ⟨w, hwm, rfl, hfind⟩ := countedArms_find _ (hA.find_disc hm)
    rw [hwp, ← hw w hwm] at hvf hbs
    simp only [if_neg ho, List.append_assoc]
    rw [Ct.of_bind_steps (readU32_encU32 cfg (hA.disc_lt hm) _)]
    simp only at hfind
    rw [hfind]
    simp only [countedLegacyVariant]
    refine Ct.bind_steps_free (countedStructBody_steps w.fields xs bs t (fun f hf => ?_) hvf hbs) fun a r => ?_
    · have := hl w hwm f hf
      unfold FieldDecl.variantWire at this
      rw [if_neg ho, if_neg ho] at this
      exact this
    · split <;> rfl

theorem countedSkipEnum_steps (cfg : Cfg) {adv : Nat → Rd Unit} {skip : CountedField V → Ct Unit} (e : Entry)
    (ws : List (CountedVariant V)) (hA : AcceptedEnum e (ws.map (·.decl)))
    (x : EnumVal V) (b t : Bytes) (hw : ∀ w ∈ ws, w.fields.map (·.decl) = w.decl.fields)
    (hl : e.optimised = false → ∀ w ∈ ws, ∀ f ∈ w.fields, (skip f).Passes f.decl.legacyC nodes)
    (hv : ValidEnum e (ws.map (·.decl)) x) (he : serializeEnumBody cfg e (ws.map (·.decl)) x = .ok b) :
    (countedSkipEnum cfg adv skip e e.revision ws (b ++ t)).1 ≤ (x.fields.map nodes).sum := by
  obtain ⟨d, v, hm, hi, hvf, hz⟩ := hv
  obtain ⟨i, xs⟩ := x
  simp only at hi hvf hz ⊢
  subst hi
  rw [validFields_iff] at hvf
  obtain ⟨bs, hbs, hlt, rfl⟩ := (serializeEnumBody_ok cfg e _ hA d v hm xs hvf.length_eq b).1 he
  unfold countedSkipEnum enumLayout
  by_cases ho : e.optimised
  · have hd := hA.disc_lt_32 ho hm
    simp only [if_pos ho, List.cons_append]
    rw [Ct.of_bind_steps (readOptimisedTag_new hd _ _)]
    refine Nat.le_trans (Nat.le_of_eq ?_) (Nat.zero_le _)
    simp only
    split
    · rfl
    · rfl
    · exact Ct.of_bind_of _ _ _
  · have ho' : e.optimised = false := by simpa using ho
    have hwp : (fun f : FieldDecl V => f.variantWire e) = fun f => f.legacyC := by
      funext f; unfold FieldDecl.variantWire; rw [if_neg ho]
    obtain ⟨w, hwm, rfl, hfind⟩ := countedArms_find _ (hA.find_disc hm)
    rw [hwp, ← hw w hwm] at hvf hbs
    simp only [if_neg ho, List.append_assoc]
    rw [Ct.of_bind_steps (readU32_encU32 cfg (hA.disc_lt hm) _)]
    simp only at hfind
    rw [hfind]
    obtain ⟨k, hk, g⟩ := countedSkipFields_gives (r := e.revision) w.fields xs bs t (hl ho' w hwm) hvf hbs
    have g : countedSkipFields skip e.revision e.revision w.fields (bs.flatten ++ t) = _ := g
    simp only [g]
    exact hk

theorem countedDispatch_steps (cfg : Cfg) {h : List Entry} (hh : ValidHistory h) {arm : Entry → Ct α} (s : Bytes) :
    (countedDispatch cfg h arm (encU16 cfg (latest h) ++ s)).1 = (arm (lastEntry h) s).1 := by
  unfold countedDispatch
  rw [Ct.of_bind_steps (readU16_encU16 cfg (by have := hh.fits; rw [hh.latest_eq]; omega) s)]
  have := hh.find hh.lastEntry_mem
  rw [hh.lastEntry_revision, ← hh.latest_eq] at this
  simp only [this]

end

/-! ### Programs -/

section
variable {ι : Type} {K : ι → Kind} [DecidableEq ι]

/-- How many values the value of a field consists of. -/
def DynAt.nodes (n : Nat) (nv : (i : ι) → Values K n i → Nat) (d : DynAt K n) : Nat := d.1.nodes (Values K n) nv d.2

theorem embed_reads {E : Env ι} {t : Ty ι} {x : Counted (t.denote E.X)} {c : Codec (t.denote E.X)}
    {nx : (i : ι) → E.X i → Nat} (h : x.dec.Reads c (t.nodes E.X nx)) :
    (x.embed fun a => (⟨t, a⟩ : Dyn E)).dec.Reads (dynC t c) fun d => d.1.nodes E.X nx d.2 := by
  rintro v b ⟨a, hp, ha⟩ hb s
  simp only [dynC, Codec.embed, hp] at hb
  have hv := (Dyn.proj_eq_some t v a).1 hp
  subst hv
  exact (h a b ha hb s).map

theorem embed_passes {E : Env ι} {t : Ty ι} {m : Ct Unit} {c : Codec (t.denote E.X)}
    {nx : (i : ι) → E.X i → Nat} (h : m.Passes c (t.nodes E.X nx)) :
    m.Passes (dynC t c) fun d => d.1.nodes E.X nx d.2 := by
  rintro v b ⟨a, hp, ha⟩ hb s
  simp only [dynC, Codec.embed, hp] at hb
  have hv := (Dyn.proj_eq_some t v a).1 hp
  subst hv
  exact h a b ha hb s

theorem embed_follows {E : Env ι} {t : Ty ι} {x : Counted (t.denote E.X)} {c : Codec (t.denote E.X)}
    {nx : (i : ι) → E.X i → Nat} (h : x.Follows c (t.nodes E.X nx)) :
    (x.embed fun a => (⟨t, a⟩ : Dyn E)).Follows (dynC t c) fun d => d.1.nodes E.X nx d.2 :=
  ⟨embed_reads h.dec, embed_passes h.skip, embed_passes h.skipS⟩

variable {cfg : Cfg} {I : Impls K} {n : Nat} {c : (i : ι) → Codec (Values K n i)} {x : (i : ι) → Counted (Values K n i)}
  {nv : (i : ι) → Values K n i → Nat}

section
variable (hc : ∀ i, (c i).Faithful) (hx : ∀ i, (x i).Counts (c i)) (hn : ∀ i, (x i).Follows (c i) (nv i))
include hc hx hn

theorem Field.plain_follows (f : Field K) : (f.counted cfg I n c x).plain.Follows (f.decl cfg I n c).plain (DynAt.nodes n nv) :=
  embed_follows (E := I.env n c)
    (Ty.counted_follows cfg (fun t => (Ty.codec_faithful_of cfg (E := I.env n c) hc t).back) x hx nv hn f.ty)

theorem Field.fixed_follows (f : Field K) : (f.counted cfg I n c x).fixedLe.Follows (f.decl cfg I n c).fixedLe (DynAt.nodes n nv) :=
  embed_follows (E := I.env n c)
    (countedFixed_follows (fun t => (Ty.codec_faithful_of cfg (E := I.env n c) hc t).back) hx hn f.ty)

theorem Field.bulk_follows (f : Field K) : (f.counted cfg I n c x).bulk.Follows (f.decl cfg I n c).bulk (DynAt.nodes n nv) :=
  embed_follows (E := I.env n c)
    (countedBulk_follows (fun t => (Ty.codec_faithful_of cfg (E := I.env n c) hc t).back)
      (fun t => (bulkOf_faithful_of cfg (E := I.env n c) hc t).back) hx hn f.ty)

theorem Field.indexed_gives (htrans : ∀ t, Std.TransCmp (I.cmp n t)) (f : Field K) :
    (f.counted cfg I n c x).indexed.dec.Reads (f.decl cfg I n c).indexed (DynAt.nodes n nv) :=
  embed_reads (E := I.env n c)
    (countedIndexed_reads (fun t => (Ty.codec_faithful_of cfg (E := I.env n c) hc t).back)
      (fun t => (indexedOf_faithful_of cfg (E := I.env n c) htrans hc t).back) hx hn f.ty)

theorem Field.legacy_reads (f : Field K) :
    (f.counted cfg I n c x).legacy.dec.Reads (f.decl cfg I n c).legacyC (DynAt.nodes n nv) := by
  unfold CountedField.legacy FieldDecl.legacyC
  have e : (f.counted cfg I n c x).decl = f.decl cfg I n c := rfl
  rw [e]
  split
  · exact (f.fixed_follows hc hx hn).dec
  · split
    · exact (f.bulk_follows hc hx hn).dec
    · exact (f.plain_follows hc hx hn).dec

theorem Field.wire_reads (htrans : ∀ t, Std.TransCmp (I.cmp n t)) (e : Entry) (f : Field K) :
    ((f.counted cfg I n c x).wire e).dec.Reads ((f.decl cfg I n c).wire e) (DynAt.nodes n nv) := by
  unfold CountedField.wire FieldDecl.wire
  split
  · unfold FieldDecl.optimisedC
    have e : (f.counted cfg I n c x).decl = f.decl cfg I n c := rfl
    rw [e]
    split
    · exact f.indexed_gives hc hx hn htrans
    · exact (f.plain_follows hc hx hn).dec
  · exact f.legacy_reads hc hx hn

omit hc hx hn in
/-- A field whose data its skip knows: in the ordinary format the skip is that of the plain format. -/
theorem Field.legacyC_plain (f : Field K) (hs : f.Skippable cfg) (hf : f.opts.fixed = false) :
    (f.decl cfg I n c).legacyC = (f.decl cfg I n c).plain := by
  unfold FieldDecl.legacyC
  have e1 : (f.decl cfg I n c).opts = f.opts := rfl
  rw [e1, if_neg (by simp [hf])]
  by_cases hsp : f.opts.specialised
  · rw [if_pos hsp]
    rcases hs with hs | hs
    · show dynC f.ty (bulkOf cfg _ f.ty) = dynC f.ty (f.ty.codec cfg _)
      congr 1
      cases cfg with
      | mk fw sp =>
        simp only at hs
        subst hs
        cases f.ty <;> rfl
    · rw [hs] at hsp; cases hsp
  · rw [if_neg hsp]

theorem Field.skip_passes (f : Field K) (hs : f.Skippable cfg) :
    (f.counted cfg I n c x).legacySkip.Passes (f.decl cfg I n c).legacyC (DynAt.nodes n nv) ∧
    (f.counted cfg I n c x).legacySkipS.Passes (f.decl cfg I n c).legacyC (DynAt.nodes n nv) := by
  unfold CountedField.legacySkip CountedField.legacySkipS
  have e : (f.counted cfg I n c x).decl.opts = f.opts := rfl
  rw [e]
  by_cases hfx : f.opts.fixed
  · have hl : (f.decl cfg I n c).legacyC = (f.decl cfg I n c).fixedLe := by
      unfold FieldDecl.legacyC
      have e1 : (f.decl cfg I n c).opts = f.opts := rfl
      rw [e1, if_pos hfx]
    rw [if_pos hfx, if_pos hfx, hl]
    exact ⟨(f.fixed_follows hc hx hn).skip, (f.fixed_follows hc hx hn).skip⟩
  · rw [if_neg hfx, if_neg hfx, f.legacyC_plain hs (by simpa using hfx)]
    exact ⟨(f.plain_follows hc hx hn).skip, (f.plain_follows hc hx hn).skipS⟩

end

theorem Body.counted_exact (htrans : ∀ t, Std.TransCmp (I.cmp n t)) (hc : ∀ i, (c i).Faithful) (hx : ∀ i, (x i).Counts (c i))
    (hn : ∀ i, (x i).Follows (c i) (nv i)) (hist : List Entry) (hh : ValidHistory hist) : {kind : Kind} → (body : Body K kind) →
    body.Readable cfg (lastEntry hist) hist.length →
    (body.counted cfg I n c x hist).Exact (body.codec cfg I n c hist) fun v => 1 + ((kind.fieldValues v).map (DynAt.nodes n nv)).sum
  | _, .struct fs, hR => by
    have hrev : (lastEntry hist).revision = latest hist := by rw [hh.lastEntry_revision, hh.latest_eq]
    have em : (fs.map (·.counted cfg I n c x)).map (·.decl) = fs.map (·.decl cfg I n c) := by rw [List.map_map]; rfl
    have parts : ∀ vs b, (Body.codec cfg I n c hist (.struct fs)).valid vs → (Body.codec cfg I n c hist (.struct fs)).enc vs = .ok b →
        ∃ b', b = encU16 cfg (latest hist) ++ b' ∧ serializeStructBody (lastEntry hist) (fs.map (·.decl cfg I n c)) vs = .ok b' ∧
        AllValid (fun f => f.wire (lastEntry hist)) (aliveFields (fs.map (·.decl cfg I n c)) (lastEntry hist).revision) vs := by
      intro vs b hv hb
      obtain ⟨b', h1, h2⟩ := Res.bind_eq_ok.1 hb
      cases h2
      exact ⟨b', rfl, h1, hrev ▸ (validFields_iff _ _).1 hv⟩
    have hskip : ∀ {adv : Nat → Rd Unit} {skip : CountedField (DynAt K n) → Ct Unit},
        (∀ f : Field K, f.Skippable cfg → (skip (f.counted cfg I n c x)).Passes (f.decl cfg I n c).legacyC (DynAt.nodes n nv)) →
        ∀ vs b, (Body.codec cfg I n c hist (.struct fs)).valid vs → (Body.codec cfg I n c hist (.struct fs)).enc vs = .ok b → ∀ t,
        (countedDispatch cfg hist (fun e => countedSkipStruct adv skip e (latest hist) (fs.map (·.counted cfg I n c x))) (b ++ t)).1 ≤
          (vs.map (DynAt.nodes n nv)).sum := by
      intro adv skip hs vs b hv hb t
      obtain ⟨b, rfl, he, hv⟩ := parts vs b hv hb
      rw [List.append_assoc, countedDispatch_steps cfg hh, ← hrev]
      refine countedSkipStruct_steps (nodes := DynAt.nodes n nv) (lastEntry hist) _ vs b t (fun ho f hf => ?_) (em ▸ hv) (em ▸ he)
      obtain ⟨f, hf', rfl⟩ := List.mem_map.1 hf
      exact hs f (hR.2.2 ho f hf')
    refine ⟨fun vs b hv hb t => ?_, fun vs b hv hb t => ?_, fun vs b hv hb t => ?_⟩
    · obtain ⟨b, rfl, he, hv⟩ := parts vs b hv hb
      refine congrArg (1 + ·) ?_
      rw [List.append_assoc]
      refine (countedDispatch_steps cfg hh (b ++ t) (arm := fun e => countedStruct e (latest hist) (fs.map (·.counted cfg I n c x)))).trans ?_
      rw [← hrev]
      refine countedStruct_steps (nodes := DynAt.nodes n nv) (lastEntry hist) _ vs b t (fun f hf => ?_) (em ▸ hv) (em ▸ he)
      obtain ⟨f, hf, rfl⟩ := List.mem_map.1 hf
      exact f.wire_reads hc hx hn htrans (lastEntry hist)
    · exact Nat.add_le_add_left (hskip (fun f hs => (f.skip_passes hc hx hn hs).1) vs b hv hb t) 1
    · exact Nat.add_le_add_left (hskip (fun f hs => (f.skip_passes hc hx hn hs).2) vs b hv hb t) 1
  | _, .enum vs, hR => by
    obtain ⟨hA, _, _, hsk⟩ := hR
    have hrev : (lastEntry hist).revision = latest hist := by rw [hh.lastEntry_revision, hh.latest_eq]
    have em : (vs.map (·.counted cfg I n c x)).map (·.decl) = vs.map (·.decl cfg I n c) := by rw [List.map_map]; rfl
    have es : (vs.map (·.decl cfg I n c)).map VariantDecl.sig = vs.map Variant.sig := by
      rw [List.map_map]
      refine List.map_congr_left fun v _ => ?_
      simp only [Function.comp, Variant.decl, VariantDecl.sig, Variant.sig, List.map_map]
      rfl
    have hA : AcceptedEnum (lastEntry hist) ((vs.map (·.counted cfg I n c x)).map (·.decl)) := by
      rw [em]
      exact ⟨es ▸ hA.distinct, es ▸ hA.discs, es ▸ hA.optimised⟩
    have hw : ∀ w ∈ vs.map (·.counted cfg I n c x), w.fields.map (·.decl) = w.decl.fields := by
      intro w hw
      obtain ⟨v, _, rfl⟩ := List.mem_map.1 hw
      show (v.fields.map _).map _ = v.fields.map _
      rw [List.map_map]
      rfl
    have parts : ∀ y b, (Body.codec cfg I n c hist (.enum vs)).enc y = .ok b →
        ∃ b', b = encU16 cfg (latest hist) ++ b' ∧ serializeEnumBody cfg (lastEntry hist) (vs.map (·.decl cfg I n c)) y = .ok b' := by
      intro y b hb
      obtain ⟨b', h1, h2⟩ := Res.bind_eq_ok.1 hb
      cases h2
      exact ⟨b', rfl, h1⟩
    have hskip : ∀ {adv : Nat → Rd Unit} {skip : CountedField (DynAt K n) → Ct Unit},
        (∀ f : Field K, f.Skippable cfg → (skip (f.counted cfg I n c x)).Passes (f.decl cfg I n c).legacyC (DynAt.nodes n nv)) →
        ∀ y b, (Body.codec cfg I n c hist (.enum vs)).valid y → (Body.codec cfg I n c hist (.enum vs)).enc y = .ok b → ∀ t,
        (countedDispatch cfg hist (fun e => countedSkipEnum cfg adv skip e (latest hist) (vs.map (·.counted cfg I n c x))) (b ++ t)).1 ≤
          (y.fields.map (DynAt.nodes n nv)).sum := by
      intro adv skip hs y b hv hb t
      obtain ⟨b, rfl, he⟩ := parts y b hb
      rw [List.append_assoc, countedDispatch_steps cfg hh, ← hrev]
      refine countedSkipEnum_steps (nodes := DynAt.nodes n nv) cfg (lastEntry hist) _ hA y b t hw (fun ho w hw f hf => ?_) (em ▸ hv) (em ▸ he)
      obtain ⟨v, hv, rfl⟩ := List.mem_map.1 hw
      obtain ⟨f, hf', rfl⟩ := List.mem_map.1 hf
      exact hs f (hsk ho v hv f hf')
    refine ⟨fun y b hv hb t => ?_, fun y b hv hb t => ?_, fun y b hv hb t => ?_⟩
    · obtain ⟨b, rfl, he⟩ := parts y b hb
      refine congrArg (1 + ·) ?_
      rw [List.append_assoc]
      refine (countedDispatch_steps cfg hh (b ++ t) (arm := fun e => countedEnum cfg e (latest hist) (vs.map (·.counted cfg I n c x)))).trans ?_
      rw [← hrev]
      refine countedEnum_steps (nodes := DynAt.nodes n nv) cfg (lastEntry hist) _ hA y b t hw (fun w hw f hf => ?_) (em ▸ hv) (em ▸ he)
      obtain ⟨v, hv, rfl⟩ := List.mem_map.1 hw
      obtain ⟨f, hf, rfl⟩ := List.mem_map.1 hf
      unfold FieldDecl.variantWire
      split
      · exact (f.plain_follows hc hx hn).dec
      · exact f.legacy_reads hc hx hn
    · exact Nat.add_le_add_left (hskip (fun f hs => (f.skip_passes hc hx hn hs).1) y b hv hb t) 1
    · exact Nat.add_le_add_left (hskip (fun f hs => (f.skip_passes hc hx hn hs).2) y b hv hb t) 1
  | _, .foreign i, _ => (Counted.Follows.leaf i.faithful.back).exact

end

theorem Program.counted_exact {ι : Type} [DecidableEq ι] (cfg : Cfg) (P : Program ι) (I : Impls P.kind)
    (htrans : ∀ n t, Std.TransCmp (I.cmp n t)) (hP : P.Readable cfg P.current) : ∀ (n : Nat) (i : ι),
    (P.counted cfg I n i).Exact (P.codec cfg I n i) (Values.nodes P.kind n i)
  | 0, _ => ⟨nofun, nofun, nofun⟩
  | n + 1, i => by
    have hb := hP.body i
    unfold Program.entryAt Program.current at hb
    rw [List.take_length] at hb
    have hf := Program.faithful cfg P I htrans hP n
    exact Body.counted_exact (htrans n) hf (P.counted_counts cfg I n)
      (fun i => (Program.counted_exact cfg P I htrans hP n i).follows (P.counted_counts cfg I n i) (hf i).back)
      (P.history i) (hP.history i) (P.body i) hb

end Revision
