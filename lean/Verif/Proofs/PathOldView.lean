import Verif.Proofs.PathOldStruct
import Verif.Proofs.ReadsIndexed

/-! Helper lemmas: following paths through views of fields written at earlier revisions. -/

namespace Revision

section
variable {κ κ' α α' β : Type} {ko : Codec κ} {kn : Codec κ'} {kmig : κ → Option κ'}
  {o : Codec α} {n : Codec α'} {mig : α → Option α'} {item : Rd (Option β)} {f : α' → Option β}

theorem Rd.FindsM.within (h : Rd.FindsM o mig item f) {a : α} {b : Bytes} {a' : α'} (ha : o.valid a)
    (hb : o.enc a = .ok b) (hm : mig a = some a') : item.within b = .ok (f a') := by
  obtain ⟨r, hr⟩ := h a b a' ha hb hm []
  rw [List.append_nil] at hr
  exact within_ok hr

theorem migrateAll_length' {g : α → Option β} : ∀ {l : List α} {l' : List β}, migrateAll g l = some l' →
    l'.length = l.length
  | [], l', h => by cases h; rfl
  | a :: l, l', h => by
    obtain ⟨b, m, _, hm, rfl⟩ := migrateAll_cons h
    simp [migrateAll_length' hm]

theorem migrateAll_get {g : α → Option β} {l : List α} {l' : List β} (h : migrateAll g l = some l') (i : Nat)
    (hi : i < l.length) : ∃ hi' : i < l'.length, g l[i] = some l'[i] := by
  have hi' : i < l'.length := by rw [migrateAll_length' h]; exact hi
  refine ⟨hi', ?_⟩
  obtain ⟨x, hx, hg⟩ := migrateAll_getElem h i (List.getElem?_eq_getElem hi')
  rw [List.getElem?_eq_getElem hi] at hx
  cases hx
  exact hg

theorem scanItem_old (h : o.Reads false n mig) (hi : Rd.FindsM o mig item f) (t : Bytes) :
    ∀ (l : List α) (bs : List Bytes) (l' : List α') (i : Nat) (hil : i < l'.length),
    (∀ a ∈ l, o.valid a) → encEach o.enc l = .ok bs → migrateAll mig l = some l' →
    ∃ r, scanItem n.skip item i (bs.flatten ++ t) = .ok (f l'[i], r)
  | [], _, l', i, hi, _, _, hm => by cases hm; simp at hi
  | a :: l, bs, l', i, hil, hval, he, hm => by
    obtain ⟨a', m', ha', hm', rfl⟩ := migrateAll_cons hm
    obtain ⟨b, bs', rfl, hb, hbs⟩ := encEach_cons.1 he
    have ha := hval a List.mem_cons_self
    rw [List.flatten_cons, List.append_assoc]
    cases i with
    | zero => exact hi a b a' ha hb ha' _
    | succ i =>
      obtain ⟨r, hr⟩ := scanItem_old h hi t l bs' m' i (by simpa using hil)
        (fun x hx => hval x (List.mem_cons_of_mem _ hx)) hbs hm'
      refine ⟨r, ?_⟩
      simp only [scanItem]
      rw [Rd.bind_of_ok (h.pass ha hb _), hr]
      rfl

theorem seqFind_old (h : o.Reads false n mig) (hi : Rd.FindsM o mig item f) (l : List α) (hlen : l.length < 2 ^ 56)
    (hvalid : ∀ a ∈ l, o.valid a) (hsmall : SmallEach o.enc l) (i : Nat) (hne : ∀ a ∈ l, o.enc a ≠ .ok []) {x : Bytes}
    (hx : serializeIndexedSeq o.enc l = .ok x) {l' : List α'} (hm : migrateAll mig l = some l') :
    seqFind n item i x = .ok (l'[i]?.bind f) := by
  have hll := migrateAll_length' hm
  by_cases h8 : 8 ≤ l.length
  · obtain ⟨w, -, w2, w3, w4, -, w5⟩ := C42_random_access l h8 hlen hsmall x hx
    have w1 := w5 fun i hi => hne _ (List.getElem_mem _)
    unfold seqFind
    rw [w1, Res.ok_bind]
    by_cases hil : i < l.length
    · obtain ⟨e, he, hel⟩ := w4 i hil
      obtain ⟨hi', hg⟩ := migrateAll_get hm i hil
      rw [w3, if_pos hil, w2, if_pos rfl, hel, Res.ok_bind, hi.within (hvalid _ (List.getElem_mem hil)) he hg,
        List.getElem?_eq_getElem hi']
      rfl
    · rw [w3, if_neg hil, List.getElem?_eq_none (by omega)]
      rfl
  · obtain ⟨bs, h1, h2⟩ := Res.bind_eq_ok.1 hx
    have hl := encEach_length h1
    rcases writeSeqBodies_ok h2 with ⟨_, rfl⟩ | ⟨h, _⟩
    · unfold seqFind
      rw [short_seq_walker (by omega), Res.ok_bind, hl]
      simp only [IndexedSeqWalker.isIndexed, Option.isSome_none, Bool.false_eq_true, if_false]
      by_cases hil : i < l.length
      · have hil' : i < l'.length := by omega
        obtain ⟨r, hr⟩ := scanItem_old h hi [] l bs l' i hil' hvalid h1 hm
        rw [List.append_nil] at hr
        rw [if_pos hil, within_ok hr, List.getElem?_eq_getElem hil']
        rfl
      · rw [if_neg hil, List.getElem?_eq_none (by omega)]
        rfl
    · omega

theorem scanKey_old (hk : ko.Reads false kn kmig) (h : o.Reads false n mig) (hi : Rd.FindsM o mig item f) (kb t : Bytes) :
    ∀ (m : List (κ × α)) (ps : List (Bytes × Bytes)) (m' : List (κ' × α')),
    (∀ e ∈ m, ko.valid e.1 ∧ o.valid e.2) → encEach (encPair ko.enc o.enc) m = .ok ps →
    migrateAll (migratePair kmig mig) m = some m' →
    ∃ r, scanKey kn n item kb m.length ((ps.map fun p => p.1 ++ p.2).flatten ++ t) =
      .ok ((m'.find? fun e => kn.enc e.1 = .ok kb).bind fun e => f e.2, r)
  | [], ps, m', _, _, hm => by cases hm; exact ⟨_, rfl⟩
  | e :: m, ps, m', hval, he, hm => by
    obtain ⟨e', m', he', hm', rfl⟩ := migrateAll_cons hm
    obtain ⟨g1, g2⟩ := migratePair_some he'
    obtain ⟨p, ps', rfl, hp, hps⟩ := encEach_cons.1 he
    obtain ⟨h1, h2⟩ := encPair_ok.1 hp
    obtain ⟨hv1, hv2⟩ := hval e List.mem_cons_self
    simp only [List.map_cons, List.flatten_cons, List.append_assoc, List.length_cons, scanKey]
    rw [Rd.bind_of_ok (hk.read hv1 h1 g1 _)]
    by_cases hq : kn.enc e'.1 = .ok kb
    · rw [if_pos hq, List.find?_cons_of_pos (by simpa using hq)]
      exact hi _ _ _ hv2 h2 g2 _
    · rw [if_neg hq, List.find?_cons_of_neg (by simpa using hq), Rd.bind_of_ok (h.pass hv2 h2 _)]
      exact scanKey_old hk h hi kb t m ps' m' (fun x hx => hval x (List.mem_cons_of_mem _ hx)) hps hm'

/-- The keys have different bytes. -/
def DistinctBytes (enc : κ → Res Bytes) (m : List (κ × α)) : Prop :=
  m.Pairwise fun a b => ∀ x, enc a.1 = .ok x → enc b.1 ≠ .ok x

theorem DistinctBytes.nodup {k : κ → Res Bytes} {v : α → Res Bytes} : ∀ {m : List (κ × α)} {ps : List (Bytes × Bytes)},
    DistinctBytes k m → encEach (encPair k v) m = .ok ps → (ps.map Prod.fst).Nodup
  | [], ps, _, h => by cases h; exact .nil
  | e :: m, ps, hd, h => by
    obtain ⟨p, ps', rfl, hp, hps⟩ := encEach_cons.1 h
    cases hd with
    | cons hd1 hd2 =>
    refine List.nodup_cons.2 ⟨fun hq => ?_, DistinctBytes.nodup hd2 hps⟩
    obtain ⟨q, hq, hpq⟩ := List.mem_map.1 hq
    obtain ⟨e', he', hq'⟩ := (encEach_mem hps q).1 hq
    refine hd1 e' he' p.1 (encPair_ok.1 hp).1 ?_
    rw [(encPair_ok.1 hq').1, hpq]

/-- As `C41_probe`, for keys whose bytes are different. -/
theorem probe_distinct {k : κ → Res Bytes} {v : α → Res Bytes} (m : List (κ × α)) (h8 : 8 ≤ m.length)
    (hlen : m.length < 2 ^ 56) (hd : DistinctBytes k m) (hsmall : SmallPairs k v m)
    (hne : ∀ e ∈ m, k e.1 ≠ .ok [] ∧ v e.2 ≠ .ok []) (b : Bytes) (h : serializeIndexedEntries k v m = .ok b) :
    ∃ w : IndexedMapWalker, IndexedMapWalker.fromPayload b = .ok w ∧ w.isIndexed = true ∧
      ∀ kb, (∀ vb, w.findValueBytes (fun x => cmpBytes x kb) = .ok (some vb) ↔
          ∃ e ∈ m, k e.1 = .ok kb ∧ v e.2 = .ok vb) ∧
        (w.findValueBytes (fun x => cmpBytes x kb) = .ok none ↔ ∀ e ∈ m, k e.1 ≠ .ok kb) := by
  obtain ⟨ps, l', h1, hp, he, hw⟩ := serializeIndexedEntries_ok h
  have hpl := encEach_length h1
  have hn : (ps.map Prod.fst).Nodup := by
    exact hd.nodup h1
  have hsp := List.mergeSort_perm ps fun a b => (cmpBytes a.1 b.1).isLE
  have hasc := sorted_asc Prod.fst ps hn
  generalize hes : (ps.mergeSort fun a b => (cmpBytes a.1 b.1).isLE) = es at *
  have hmem : ∀ kb vb, (kb, vb) ∈ es ↔ ∃ e ∈ m, k e.1 = .ok kb ∧ v e.2 = .ok vb := by
    intro kb vb
    rw [hsp.mem_iff, encEach_mem h1]
    constructor
    · rintro ⟨e, he, x⟩; exact ⟨e, he, encPair_ok.1 x⟩
    · rintro ⟨e, he, x⟩; exact ⟨e, he, encPair_ok.2 x⟩
  have hesl : es.length = m.length := by rw [hsp.length_eq, hpl]
  have hs : ∀ p ∈ es, p.1.length < 2 ^ 32 ∧ p.2.length < 2 ^ 32 := by
    rintro ⟨kb, vb⟩ hx
    obtain ⟨e, he, x, y⟩ := (hmem kb vb).1 hx
    exact ⟨(hsmall e he).1 _ x, (hsmall e he).2 _ y⟩
  have hne' : ∀ p ∈ es, p.1 ≠ [] ∧ p.2 ≠ [] := by
    rintro ⟨kb, vb⟩ hx
    obtain ⟨e, he, x, y⟩ := (hmem kb vb).1 hx
    exact ⟨fun z => (hne e he).1 (by rw [x]; simp only at z; rw [z]),
      fun z => (hne e he).2 (by rw [y]; simp only at z; rw [z])⟩
  obtain ⟨w, w1, w2, w3, w4, pr, w5, w6, w7⟩ :=
    walker_of_written hw (by omega) (by omega) hs hne' hasc []
  rw [List.append_nil] at w1
  have hbl : b.length < 2 ^ 63 := by
    rcases writeMapPairs_ok hw with ⟨h, _⟩ | ⟨_, os, kl, vl, ho, rfl⟩
    · omega
    · have hol := mapOffsets_length ho
      rw [mapOffsets_small hs 0 0 (by decide) (by decide)] at ho
      split at ho
      case isFalse => cases ho
      case isTrue hfit =>
      have := writeVarint_length es.length
      simp only [List.length_cons, List.length_append, leBytes_length, pairTable_length] at hfit ⊢
      omega
  refine ⟨w, w1, w3, fun kb => ?_⟩
  obtain ⟨k1, k2⟩ := C35_accepted_key b hbl w w1 es w4 hasc kb
  refine ⟨fun vb => by rw [k1, hmem], ?_⟩
  rw [k2]
  constructor
  · intro hno e hem hek
    obtain ⟨i, hi, rfl⟩ := List.getElem_of_mem hem
    have := encPair_ok.1 (encEach_get h1 i hi (by rw [encEach_length h1]; exact hi))
    exact hno (List.mem_map.2 ⟨_, (hmem _ _).2 ⟨_, hem, this⟩, Res.ok.inj (this.1.symm.trans hek)⟩)
  · intro hno hm
    obtain ⟨⟨kb', vb⟩, hx, rfl⟩ := List.mem_map.1 hm
    obtain ⟨e, he, x, _⟩ := (hmem kb' vb).1 hx
    exact hno e he x

theorem DistinctBytes.perm {enc : κ → Res Bytes} {m m' : List (κ × α)} (hp : m.Perm m') (h : DistinctBytes enc m) :
    DistinctBytes enc m' :=
  (List.Perm.pairwise_iff (fun h x hx hy => h x hy hx) hp).1 h

theorem DistinctBytes.find {enc : κ → Res Bytes} {m : List (κ × α)} (h : DistinctBytes enc m) {kb : Bytes} {e : κ × α}
    (he : e ∈ m) (hek : enc e.1 = .ok kb) : (m.find? fun e => enc e.1 = .ok kb) = some e := by
  refine find?_unique he (by simpa using hek) fun w hw hwk => ?_
  have hwk : enc w.1 = .ok kb := by simpa using hwk
  obtain ⟨i, hi, e1⟩ := List.getElem_of_mem hw
  obtain ⟨j, hj, e2⟩ := List.getElem_of_mem he
  have hg := List.pairwise_iff_getElem.1 h
  rcases Nat.lt_trichotomy i j with hij | hij | hij
  · exact absurd (e2 ▸ hek) (hg i j hi hj hij kb (e1 ▸ hwk))
  · subst hij; rw [← e1, ← e2]
  · exact absurd (e1 ▸ hwk) (hg j i hj hi hij kb (e2 ▸ hek))

theorem mapFind_old (hk : ko.Reads false kn kmig) (h : o.Reads false n mig) (hi : Rd.FindsM o mig item f)
    (hby : ∀ a a', kmig a = some a' → kn.enc a' = ko.enc a) (m : List (κ × α)) (hlen : m.length < 2 ^ 56)
    (hvalid : ∀ e ∈ m, ko.valid e.1 ∧ o.valid e.2) (hd : DistinctBytes ko.enc m)
    (hsmall : SmallPairs ko.enc o.enc m) (kb : Bytes)
    (hne : ∀ e ∈ m, ko.enc e.1 ≠ .ok [] ∧ o.enc e.2 ≠ .ok []) {x : Bytes}
    (hx : serializeIndexedEntries ko.enc o.enc m = .ok x) {m0 m' : List (κ' × α')}
    (hm : migrateAll (migratePair kmig mig) (byBytes ko Prod.fst m) = some m0) (hp : m0.Perm m') :
    mapFind kn n item kb x = .ok ((m'.find? fun e => kn.enc e.1 = .ok kb).bind fun e => f e.2) := by
  have hbp : (byBytes ko Prod.fst m).Perm m := List.mergeSort_perm _ _
  have hd0 : DistinctBytes kn.enc m0 := by
    refine migrateAll_pairwise (fun a b a' b' ha hb h => ?_) hm (hd.perm hbp.symm)
    rw [hby _ _ (migratePair_some ha).1, hby _ _ (migratePair_some hb).1]
    exact h
  have hd' := hd0.perm hp
  by_cases h8 : 8 ≤ m.length
  · obtain ⟨w, w1, w2, w4⟩ := probe_distinct m h8 hlen hd hsmall hne x hx
    obtain ⟨q1, q2⟩ := w4 kb
    have hl : w.legacyBody = none := by
      unfold IndexedMapWalker.legacyBody
      simp only [IndexedMapWalker.isIndexed, Option.isSome_iff_exists] at w2
      obtain ⟨p, hp⟩ := w2
      rw [hp]
    unfold mapFind
    rw [w1, Res.ok_bind, hl]
    simp only
    by_cases hin : ∃ e ∈ m, ko.enc e.1 = .ok kb
    · obtain ⟨e, he, hek⟩ := hin
      obtain ⟨ps, h1, -⟩ := Res.bind_eq_ok.1 hx
      obtain ⟨vb, hvb⟩ : ∃ vb, o.enc e.2 = .ok vb := by
        obtain ⟨i, hi, e'⟩ := List.getElem_of_mem he
        have := encEach_get h1 i hi (by rw [encEach_length h1]; exact hi)
        rw [e'] at this
        exact ⟨_, (encPair_ok.1 this).2⟩
      obtain ⟨e', he', hee⟩ := migrateAll_mem' hm (mem_byBytes.2 he)
      obtain ⟨g1, g2⟩ := migratePair_some hee
      rw [(q1 vb).2 ⟨e, he, hek, hvb⟩, Res.ok_bind, hd'.find (hp.mem_iff.1 he') ((hby _ _ g1).trans hek)]
      exact hi.within (hvalid _ he).2 hvb g2
    · have hno : ∀ e ∈ m, ko.enc e.1 ≠ .ok kb := fun e he hek => hin ⟨e, he, hek⟩
      rw [q2.2 hno, Res.ok_bind, List.find?_eq_none.2 (fun e' he' => ?_)]
      · rfl
      · obtain ⟨e, he, hee⟩ := migrateAll_mem hm (hp.mem_iff.2 he')
        have := hno e (mem_byBytes.1 he)
        rw [← hby _ _ (migratePair_some hee).1] at this
        simpa using this
  · obtain ⟨ps, he, hw⟩ := serializeIndexedEntries_bytes hx
    have hl := encEach_length he
    have hbl := byBytes_length (c := ko) (key := Prod.fst) (l := m)
    rcases writeMapPairs_ok hw with ⟨_, rfl⟩ | ⟨h, _⟩
    · obtain ⟨r, hr⟩ := scanKey_old hk h hi kb [] _ _ m0 (fun e he => hvalid e (mem_byBytes.1 he)) he hm
      rw [List.append_nil, ← hl] at hr
      unfold mapFind
      rw [short_map_walker (by omega), Res.ok_bind]
      refine (within_ok hr).trans ?_
      congr 2
      by_cases hin : ∃ e ∈ m0, kn.enc e.1 = .ok kb
      · obtain ⟨e, he, hek⟩ := hin
        rw [hd0.find he hek, hd'.find (hp.mem_iff.1 he) hek]
      · have n1 : (m0.find? fun e => kn.enc e.1 = .ok kb) = none :=
          List.find?_eq_none.2 fun e he => by simpa using fun h => hin ⟨e, he, h⟩
        have n2 : (m'.find? fun e => kn.enc e.1 = .ok kb) = none :=
          List.find?_eq_none.2 fun e he => by simpa using fun h => hin ⟨e, hp.mem_iff.2 he, h⟩
        rw [n1, n2]
    · omega

end

variable {ι : Type}

theorem Ty.viewStep_old {β : Type} (cfg : Cfg) {E E' : Env ι} (htrans : ∀ t, Std.TransCmp (E'.cmp t))
    (heq : ∀ t a, E'.eq t a a = true) (hcap : E.CapLe E')
    {g : (i : ι) → E.X i → Option (E'.X i)} (hx : ∀ i, (E.extC i).Reads false (E'.extC i) (g i))
    {get : (t : Ty ι) → Get (t.denote E'.X) β} {inner : (t : Ty ι) → t.denote E'.X → Option β}
    {einner : (i : ι) → E'.X i → Option β} {Op Wt Or Eq By : Ty ι → Prop} (s : Step)
    (hOr : ∀ t, Or t → t.KeepsOrder g) (hEq : ∀ t, Eq t → t.KeepsEq g)
    (hBy : ∀ t, By t → ∀ a a', t.migrate E E' g a = some a' → (t.codec cfg E').enc a' = (t.codec cfg E).enc a)
    (hget : ∀ t, Op t → (get t).FindsM (t.codec cfg E) (t.migrate E E' g) (inner t))
    (hwt : ∀ t, Wt t → ∀ v, (t.codec cfg E).enc v ≠ .ok []) (t : Ty ι) (ho : t.openViewAt Wt Or Eq By Op s) :
    (indexedOf cfg E t).ViewFindsM (t.migrateIndexed cfg E E' g) (fun b => t.viewStep cfg E' get s b)
      (t.stepInto (fun t => (t.codec cfg E').enc) inner einner s) := by
  have hf := fun t : Ty ι => t.codec_reads (w := false) cfg hcap g hx
  have hr := fun t h => Get.read_findsM (hf t) (hget t h)
  intro val b val' hv hb hm
  cases t with
  | vec t | vector t =>
    obtain ⟨h1, -, h3, h4⟩ := hv
    cases s with
    | elem k =>
      obtain ⟨ow, oi⟩ := ho k rfl
      exact seqFind_old (hf t) (hr t oi) val h1 h3 h4 k (fun a _ => hwt t ow a) hb hm
    | _ => rfl
  | btreeMap k v =>
    obtain ⟨h1, -, -, h4, h5, h6⟩ := hv
    cases s with
    | key kb =>
      obtain ⟨wk, wv, ok, bk, oi⟩ := ho.1 kb rfl
      obtain ⟨m0, hm0, rfl⟩ := Option.map_eq_some_iff.1 hm
      have htr := htrans k
      have hgm : ∀ e ∈ val, ∃ e', k.migrate E E' g e.1 = some e' := fun e he => by
        obtain ⟨e', _, hee⟩ := migrateAll_mem' hm0 (mem_byBytes.2 he)
        exact ⟨e'.1, (migratePair_some hee).1⟩
      have h6' := List.pairwise_map.1 h6
      have hd : DistinctBytes (k.codec cfg E).enc val := by
        refine List.Pairwise.imp_of_mem (fun {a b} ha hb hlt x hxa hxb => ?_) h6'
        obtain ⟨a', ga⟩ := hgm a ha
        obtain ⟨b', gb⟩ := hgm b hb
        have d1 := (hf k).read (h4 a ha).1 hxa ga []
        rw [(hf k).read (h4 b hb).1 hxb gb []] at d1
        cases d1
        have := hOr k ok _ _ _ _ ga gb
        rw [Std.ReflCmp.compare_self (cmp := E'.cmp k), hlt] at this
        cases this
      refine mapFind_old (hf k) (hf v) (hr v oi) (hBy k bk) val h1 h4 hd h5 kb
        (fun e _ => ⟨hwt k wk e.1, hwt v wv e.2⟩) hb hm0 (List.Perm.symm ?_)
      have hq : (byBytes (k.codec cfg E) Prod.fst val).Pairwise fun a b => ∀ a' b', k.migrate E E' g a.1 = some a' →
          k.migrate E E' g b.1 = some b' → E'.cmp k a' b' ≠ .eq := by
        refine (List.Perm.pairwise_iff (fun {a b} h x y hx hy e => h y x hy hx (Std.OrientedCmp.eq_symm e))
          (List.mergeSort_perm _ _)).2 ?_
        refine h6'.imp fun {a b} hlt a' b' ga gb => ?_
        rw [hOr k ok _ _ _ _ ga gb, hlt]
        decide
      have := btree_foldl_perm (cmp := E'.cmp k) m0 [] (by
        rw [List.nil_append]
        exact migrateAll_pairwise (fun a b a' b' ha hb h =>
          h _ _ (migratePair_some ha).1 (migratePair_some hb).1) hm0 hq)
      rwa [List.nil_append] at this
    | value j => exact absurd rfl (ho.2 j)
    | _ => rfl
  | hashMap k v =>
    obtain ⟨h1, -, -, -, h4, h5, h6, h7⟩ := hv
    cases s with
    | key kb =>
      obtain ⟨wk, wv, ek, bk, oi⟩ := ho.1 kb rfl
      obtain ⟨m0, hm0, rfl⟩ := Option.map_eq_some_iff.1 hm
      have hgm : ∀ e ∈ val, ∃ e', k.migrate E E' g e.1 = some e' := fun e he => by
        obtain ⟨e', _, hee⟩ := migrateAll_mem' hm0 (mem_byBytes.2 he)
        exact ⟨e'.1, (migratePair_some hee).1⟩
      have h6' := List.pairwise_map.1 h6
      have hd : DistinctBytes (k.codec cfg E).enc val := by
        refine List.Pairwise.imp_of_mem (fun {a b} ha hb hlt x hxa hxb => ?_) h6'
        obtain ⟨a', ga⟩ := hgm a ha
        obtain ⟨b', gb⟩ := hgm b hb
        have d1 := (hf k).read (h4 a ha).1 hxa ga []
        rw [(hf k).read (h4 b hb).1 hxb gb []] at d1
        cases d1
        have := hEq k ek _ _ _ _ ga gb
        rw [heq, hlt] at this
        cases this
      have hsorted : byBytes (k.codec cfg E) Prod.fst val = val := by
        obtain ⟨ps, hps, -⟩ := Res.bind_eq_ok.1 hb
        refine List.mergeSort_of_pairwise ?_
        refine List.Pairwise.imp_of_mem (fun {a b} ha hb h => ?_) h7
        have hok : ∀ e ∈ val, ∃ x, (k.codec cfg E).enc e.1 = .ok x := by
          intro e he
          obtain ⟨i, hi, rfl⟩ := List.getElem_of_mem he
          exact ⟨_, (encPair_ok.1 (encEach_get hps i hi (by rw [encEach_length hps]; exact hi))).1⟩
        obtain ⟨x, hx⟩ := hok a ha
        obtain ⟨y, hy⟩ := hok b hb
        rw [bytes_of_ok hx, bytes_of_ok hy]
        exact h x y hx hy
      refine mapFind_old (hf k) (hf v) (hr v oi) (hBy k bk) val h1 h4 hd h5 kb
        (fun e _ => ⟨hwt k wk e.1, hwt v wv e.2⟩) hb hm0 (List.Perm.symm ?_)
      rw [hsorted] at hm0
      rw [hash_foldl_fix m0 [], List.nil_append]
      rw [List.nil_append]
      refine List.pairwise_map.2 (migrateAll_pairwise (fun a b a' b' ha hb h => ?_) hm0 h6')
      exact (hEq k ek _ _ _ _ (migratePair_some ha).1 (migratePair_some hb).1).trans h
    | value j => exact absurd rfl (ho.2 j)
    | _ => rfl
  | btreeSet t | hashSet t =>
    cases s with
    | elem k => exact absurd rfl (ho k)
    | _ => rfl
  | _ => exact ho.elim

end Revision
