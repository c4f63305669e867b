import Verif.Proofs.Indexed

/-! Helper lemmas: walkers over serialised indexed collections. -/

namespace Revision

theorem fromPayload_build {n : Nat} {T keys vals post : Bytes} (hn : n < 2 ^ 56)
    (hT : T.length = n * 8) (hk : keys.length < 2 ^ 32) (hv : vals.length < 2 ^ 32) (validate : Bool)
    (hval : validate = true → (⟨T, keys, vals⟩ : MapPrologue).Valid n) :
    IndexedMapWalker.fromPayloadInner (1 :: (writeVarint n ++ (T ++ (leBytes 4 keys.length ++
      (leBytes 4 vals.length ++ (keys ++ (vals ++ post))))))) validate =
    .ok ⟨T ++ (leBytes 4 keys.length ++ (leBytes 4 vals.length ++ (keys ++ (vals ++ post)))),
      some ⟨T, keys, vals⟩, n⟩ := by
  generalize hB : leBytes 4 keys.length ++ (leBytes 4 vals.length ++ (keys ++ (vals ++ post))) = B
  generalize hk1 : (writeVarint n).length = k
  have hk9 : k ≤ 9 := by rw [← hk1]; exact writeVarint_length n
  have hBl : B.length = 8 + keys.length + vals.length + post.length := by
    rw [← hB]; simp only [List.length_append, leBytes_length]; omega
  generalize hP : (1 :: (writeVarint n ++ (T ++ B)) : Bytes) = P
  have hPl : P.length = 1 + k + n * 8 + B.length := by
    rw [← hP]; simp only [List.length_cons, List.length_append]; omega
  have s1 : slice P (1 + k) (1 + k + n * 8) = T := by
    rw [← hP]
    exact slice_append_mid (1 :: writeVarint n) T B (by simp only [List.length_cons]; omega) (by omega)
  have hd : P.drop (1 + k) = T ++ B := by
    have e : (1 + k) = ((1 : UInt8) :: writeVarint n).length := by simp only [List.length_cons]; omega
    rw [← hP, e, ← List.cons_append, List.drop_left]
  have e2 : P = (1 :: (writeVarint n ++ T)) ++ (leBytes 4 keys.length ++
      (leBytes 4 vals.length ++ (keys ++ (vals ++ post)))) := by
    rw [← hP, ← hB]; simp only [List.cons_append, List.append_assoc]
  have e3 : P = (1 :: (writeVarint n ++ (T ++ leBytes 4 keys.length))) ++
      (leBytes 4 vals.length ++ (keys ++ (vals ++ post))) := by
    rw [← hP, ← hB]; simp only [List.cons_append, List.append_assoc]
  have e4 : P = (1 :: (writeVarint n ++ (T ++ (leBytes 4 keys.length ++ leBytes 4 vals.length)))) ++
      (keys ++ (vals ++ post)) := by
    rw [← hP, ← hB]; simp only [List.cons_append, List.append_assoc]
  have e5 : P = (1 :: (writeVarint n ++ (T ++ (leBytes 4 keys.length ++ (leBytes 4 vals.length ++
      keys))))) ++ (vals ++ post) := by
    rw [← hP, ← hB]; simp only [List.cons_append, List.append_assoc]
  have d1 : u32At P (1 + k + n * 8) = keys.length := by
    unfold u32At
    rw [e2, slice_append_mid _ (leBytes 4 keys.length) _ (by
      simp only [List.length_cons, List.length_append]; omega) (by rw [leBytes_length]),
      leVal_leBytes, Nat.mod_eq_of_lt (by omega)]
  have d2 : u32At P (1 + k + n * 8 + 4) = vals.length := by
    unfold u32At
    rw [e3, slice_append_mid _ (leBytes 4 vals.length) _ (by
      simp only [List.length_cons, List.length_append, leBytes_length]; omega) (by rw [leBytes_length]),
      leVal_leBytes, Nat.mod_eq_of_lt (by omega)]
  have s2 : slice P (1 + k + n * 8 + 8) (1 + k + n * 8 + 8 + keys.length) = keys := by
    rw [e4]
    exact slice_append_mid _ keys _ (by
      simp only [List.length_cons, List.length_append, leBytes_length]; omega) rfl
  have s3 : slice P (1 + k + n * 8 + 8 + keys.length)
      (1 + k + n * 8 + 8 + keys.length + vals.length) = vals := by
    rw [e5]
    exact slice_append_mid _ vals _ (by
      simp only [List.length_cons, List.length_append, leBytes_length]; omega) rfl
  have unf : IndexedMapWalker.fromPayloadInner P validate =
      (do
        let (len, varintBytes) ← sliceVarint (writeVarint n ++ (T ++ B))
        let cursor := 1 + varintBytes
        if (1 : UInt8) &&& 1 = 0 then .ok ⟨P.drop cursor, none, len⟩
        else do
          let tableBytes ← checkedMul len 8 .deserialize
          let tableEnd ← addU cursor tableBytes
          if P.length < tableEnd then .err .overrun
          else do
            let table ← sliceR P cursor tableEnd
            let lensEnd ← addU tableEnd 8
            if P.length < lensEnd then .err .overrun
            else do
              let keysLen ← decodeU32At P tableEnd
              let valsLen ← decodeU32At P (tableEnd + 4)
              let keysEnd ← addU lensEnd keysLen
              let valsEnd ← addU keysEnd valsLen
              if P.length < valsEnd then .err .overrun
              else do
                let keys ← sliceR P lensEnd keysEnd
                let vals ← sliceR P keysEnd valsEnd
                if validate then do
                  validateMapPrologue table len keysLen valsLen
                  validateKeyRegionAscending keys table len
                  .ok ⟨P.drop cursor, some ⟨table, keys, vals⟩, len⟩
                else .ok ⟨P.drop cursor, some ⟨table, keys, vals⟩, len⟩) := by
    subst hP; rfl
  have au : ∀ a b, a + b < 2 ^ 64 → addU a b = .ok (a + b) := fun a b h => by
    unfold addU; rw [if_pos h]
  have hm : checkedMul n 8 .deserialize = .ok (n * 8) := by
    unfold checkedMul; rw [if_pos (by omega)]
  rw [unf, sliceVarint_write n (by omega)]
  simp only [Res.ok_bind, hk1]
  rw [if_neg (by decide), hm]
  simp only [Res.ok_bind]
  rw [au _ _ (by omega)]
  simp only [Res.ok_bind]
  rw [if_neg (by omega), sliceR_ok (by omega) (by omega), s1]
  simp only [Res.ok_bind]
  rw [au _ _ (by omega)]
  simp only [Res.ok_bind]
  rw [if_neg (by omega), decodeU32At_ok (by omega), decodeU32At_ok (by omega), d1, d2]
  simp only [Res.ok_bind]
  rw [au _ _ (by omega)]
  simp only [Res.ok_bind]
  rw [au _ _ (by omega)]
  simp only [Res.ok_bind]
  rw [if_neg (by omega), sliceR_ok (by omega) (by omega), sliceR_ok (by omega) (by omega), s2, s3, hd]
  simp only [Res.ok_bind]
  cases validate with
  | false => rfl
  | true =>
    have hV := hval rfl
    have h0 := hV.pos
    have v1 := (validateMapPrologue_iff (p := ⟨T, keys, vals⟩) hT (by omega) h0).1.2
      ⟨hV.kLe, hV.kLt, hV.vLe, hV.vLt⟩
    have v2 := (validateKeyRegionAscending_iff (p := ⟨T, keys, vals⟩) hT hV.kMono hV.kBound).1.2 hV.asc
    simp only at v1 v2
    rw [if_pos rfl, v1]
    simp only [Res.ok_bind]
    rw [v2]; rfl

theorem zip_get {as bs : List Nat} {i : Nat} (h : i < (as.zip bs).length) (h1 : i < as.length)
    (h2 : i < bs.length) : (as.zip bs)[i] = (as[i], bs[i]) := by
  simp

/-- The prologue of a written map. -/
theorem written_prologue {ps : List (Bytes × Bytes)} {n : Nat} (hn : ps.length = n)
    (hk : ((ps.map Prod.fst).flatten).length < 2 ^ 32)
    (hv : ((ps.map Prod.snd).flatten).length < 2 ^ 32) (p : MapPrologue)
    (hp : p = ⟨(((fieldOffsets 0 (ps.map Prod.fst)).zip (fieldOffsets 0 (ps.map Prod.snd))).map
        fun o => leBytes 4 o.1 ++ leBytes 4 o.2).flatten, (ps.map Prod.fst).flatten,
        (ps.map Prod.snd).flatten⟩) :
    p.table.length = n * 8 ∧
    (∀ i, i ≤ n → p.K n i = (((ps.map Prod.fst).take i).flatten).length) ∧
    (∀ i, i ≤ n → p.V n i = (((ps.map Prod.snd).take i).flatten).length) ∧
    (∀ i (h : i < ps.length), p.key n i = ps[i].1 ∧ p.val n i = ps[i].2) := by
  have hz : ((fieldOffsets 0 (ps.map Prod.fst)).zip (fieldOffsets 0 (ps.map Prod.snd))).length = n := by
    simp [fieldOffsets_length, hn]
  have hT : p.table.length = n * 8 := by rw [hp]; simp only; rw [pairTable_length, hz]
  have cols : ∀ i, i < n → u32At p.table (i * 8) = (((ps.map Prod.fst).take i).flatten).length ∧
      u32At p.table (i * 8 + 4) = (((ps.map Prod.snd).take i).flatten).length := by
    intro i hi
    have hi' : i < ((fieldOffsets 0 (ps.map Prod.fst)).zip
      (fieldOffsets 0 (ps.map Prod.snd))).length := by rw [hz]; exact hi
    have i1 : i < (fieldOffsets 0 (ps.map Prod.fst)).length := by
      rw [fieldOffsets_length, List.length_map]; omega
    have i2 : i < (fieldOffsets 0 (ps.map Prod.snd)).length := by
      rw [fieldOffsets_length, List.length_map]; omega
    have g1 := fieldOffsets_get (ps.map Prod.fst) 0 i i1
    have g2 := fieldOffsets_get (ps.map Prod.snd) 0 i i2
    have l1 := take_flatten_length_le (ps.map Prod.fst) i
    have l2 := take_flatten_length_le (ps.map Prod.snd) i
    have ez := zip_get hi' i1 i2
    have := u32At_pairTable _ [] i hi' (by rw [ez]; simp only; omega) (by rw [ez]; simp only; omega)
    rw [ez] at this
    simp only [List.append_nil, g1, g2, Nat.zero_add] at this
    rw [hp]; exact this
  have hK : ∀ i, i ≤ n → p.K n i = (((ps.map Prod.fst).take i).flatten).length := by
    intro i hi
    unfold MapPrologue.K
    by_cases h : i < n
    · rw [if_pos h]; exact (cols i h).1
    · rw [if_neg h, List.take_of_length_le (by simp; omega), hp]
  have hV : ∀ i, i ≤ n → p.V n i = (((ps.map Prod.snd).take i).flatten).length := by
    intro i hi
    unfold MapPrologue.V
    by_cases h : i < n
    · rw [if_pos h]; exact (cols i h).2
    · rw [if_neg h, List.take_of_length_le (by simp; omega), hp]
  refine ⟨hT, hK, hV, ?_⟩
  intro i h
  constructor
  · unfold MapPrologue.key
    rw [hK i (by omega), hK (i + 1) (by omega)]
    have := slice_flatten_get [] (ps.map Prod.fst) i (by simpa using h)
    simp only [List.nil_append, List.length_nil, Nat.zero_add, List.getElem_map] at this
    rw [hp]; exact this
  · unfold MapPrologue.val
    rw [hV i (by omega), hV (i + 1) (by omega)]
    have := slice_flatten_get [] (ps.map Prod.snd) i (by simpa using h)
    simp only [List.nil_append, List.length_nil, Nat.zero_add, List.getElem_map] at this
    rw [hp]; exact this

/-- A written map's prologue passes validation exactly if its keys ascend strictly and all but the
last keys and values are non-empty. -/
theorem written_valid {ps : List (Bytes × Bytes)} {n : Nat} (hn : ps.length = n) (h0 : 0 < n)
    (hk : ((ps.map Prod.fst).flatten).length < 2 ^ 32)
    (hv : ((ps.map Prod.snd).flatten).length < 2 ^ 32)
    (hasc : (ps.map Prod.fst).Pairwise fun a b => cmpBytes a b = .lt)
    (hne : ∀ p ∈ ps, p.1 ≠ [] ∧ p.2 ≠ []) (p : MapPrologue)
    (hp : p = ⟨(((fieldOffsets 0 (ps.map Prod.fst)).zip (fieldOffsets 0 (ps.map Prod.snd))).map
        fun o => leBytes 4 o.1 ++ leBytes 4 o.2).flatten, (ps.map Prod.fst).flatten,
        (ps.map Prod.snd).flatten⟩) : p.Valid n := by
  obtain ⟨hT, hK, hV, hkv⟩ := written_prologue hn hk hv p hp
  have kl : p.keys = (ps.map Prod.fst).flatten := by rw [hp]
  have vl : p.vals = (ps.map Prod.snd).flatten := by rw [hp]
  refine ⟨hT, h0, ?_, ?_, ?_, ?_, ?_⟩
  · intro j hj; rw [hK j (by omega), kl]; exact take_flatten_length_le _ _
  · intro j hj
    rw [hK j (by omega), hK (j + 1) (by omega), take_succ_flatten_length _ _ (by simp; omega)]
    have := (hne ps[j] (List.getElem_mem _)).1
    have := List.length_pos_iff.2 this
    simp only [List.getElem_map]; omega
  · intro j hj; rw [hV j (by omega), vl]; exact take_flatten_length_le _ _
  · intro j hj
    rw [hV j (by omega), hV (j + 1) (by omega), take_succ_flatten_length _ _ (by simp; omega)]
    have := (hne ps[j] (List.getElem_mem _)).2
    have := List.length_pos_iff.2 this
    simp only [List.getElem_map]; omega
  · intro j hj
    rw [(hkv j (by omega)).1, (hkv (j + 1) (by omega)).1]
    have := List.pairwise_iff_getElem.1 hasc j (j + 1) (by simp; omega) (by simp; omega) (by omega)
    simpa using this

theorem written_es {ps : List (Bytes × Bytes)} {p : MapPrologue} {n : Nat} (hn : ps.length = n)
    (hkv : ∀ i (h : i < ps.length), p.key n i = ps[i].1 ∧ p.val n i = ps[i].2) : p.es n = ps := by
  unfold MapPrologue.es
  refine List.ext_getElem (by simp [hn]) ?_
  intro i h1 h2
  simp only [List.getElem_map, List.getElem_range]
  rw [(hkv i h2).1, (hkv i h2).2]

/-- The walker over a written map of at least eight entries. -/
theorem walker_of_written {ps : List (Bytes × Bytes)} {b : Bytes} (hw : writeMapPairs ps = .ok b)
    (h8 : 8 ≤ ps.length) (hn : ps.length < 2 ^ 56)
    (hs : ∀ p ∈ ps, p.1.length < 2 ^ 32 ∧ p.2.length < 2 ^ 32)
    (hne : ∀ p ∈ ps, p.1 ≠ [] ∧ p.2 ≠ [])
    (hasc : (ps.map Prod.fst).Pairwise fun a b => cmpBytes a b = .lt) (post : Bytes) :
    ∃ w, IndexedMapWalker.fromPayload (b ++ post) = .ok w ∧ w.len = ps.length ∧
      w.isIndexed = true ∧ w.entries = some (.ok ps) ∧ ∃ pr, w.prologue = some pr ∧ pr.Valid w.len ∧
      pr.es w.len = ps := by
  rcases writeMapPairs_ok hw with ⟨h, _⟩ | ⟨_, os, kl, vl, ho, rfl⟩
  · omega
  rw [mapOffsets_small hs 0 0 (by decide) (by decide)] at ho
  split at ho
  case isFalse => cases ho
  case isTrue hfit =>
  simp only [Res.ok.injEq, Prod.mk.injEq, Nat.zero_add] at ho hfit
  obtain ⟨rfl, rfl, rfl⟩ := ho
  have hV := written_valid rfl (by omega) hfit.1 hfit.2 hasc hne _ rfl
  obtain ⟨hT, _, _, hkv⟩ := written_prologue rfl hfit.1 hfit.2 _ rfl
  have := fromPayload_build (post := post) hn hT hfit.1 hfit.2 true (fun _ => hV)
  have es := written_es rfl hkv
  refine ⟨_, by
    simp only [List.cons_append, List.append_assoc]
    exact this, rfl, rfl, ?_, _, rfl, hV, es⟩
  rw [entries_valid rfl hV, es]

/-- The walker over a written sequence of at least eight elements. -/
theorem seqWalker_of_written {bs : List Bytes} {b : Bytes} (hw : writeSeqBodies bs = .ok b)
    (h8 : 8 ≤ bs.length) (hn : bs.length < 2 ^ 56) (hs : ∀ b ∈ bs, b.length < 2 ^ 32) :
    IndexedSeqWalker.fromPayloadUnvalidated b =
      .ok ⟨bs.flatten, some (tbl (fieldOffsets 0 bs)), bs.length⟩ ∧
    (∀ i (h : i < bs.length), (⟨bs.flatten, some (tbl (fieldOffsets 0 bs)), bs.length⟩ :
      IndexedSeqWalker).elementBytes i = .ok bs[i]) ∧
    ((∀ i (_ : i + 1 < bs.length), bs[i] ≠ []) → IndexedSeqWalker.fromPayload b =
      .ok ⟨bs.flatten, some (tbl (fieldOffsets 0 bs)), bs.length⟩) := by
  rcases writeSeqBodies_ok hw with ⟨h, _⟩ | ⟨_, os, last, ho, rfl⟩
  · omega
  rw [seqOffsets_small hs 0 (by decide)] at ho
  split at ho
  case isFalse => cases ho
  case isTrue hfit =>
  simp only [Res.ok.injEq, Prod.mk.injEq, Nat.zero_add] at ho hfit
  obtain ⟨rfl, _⟩ := ho
  generalize hT : tbl (fieldOffsets 0 bs) = T
  have hTl : T.length = bs.length * 4 := by rw [← hT, tbl_length, fieldOffsets_length]
  have hu : ∀ i, i < bs.length → u32At T (i * 4) = ((bs.take i).flatten).length := by
    intro i hi
    have i1 : i < (fieldOffsets 0 bs).length := by rw [fieldOffsets_length]; exact hi
    have g := fieldOffsets_get bs 0 i i1
    have l := take_flatten_length_le bs i
    have := u32At_tbl (fieldOffsets 0 bs) [] i i1 (by rw [g]; omega)
    rw [List.append_nil, hT, g, Nat.zero_add] at this
    exact this
  generalize hk1 : (writeVarint bs.length).length = k
  have hk9 : k ≤ 9 := by rw [← hk1]; exact writeVarint_length _
  generalize hP : (1 :: (writeVarint bs.length ++ (T ++ bs.flatten)) : Bytes) = P
  have hPl : P.length = 1 + k + bs.length * 4 + bs.flatten.length := by
    rw [← hP]; simp only [List.length_cons, List.length_append]; omega
  have s1 : slice P (1 + k) (1 + k + bs.length * 4) = T := by
    rw [← hP]
    exact slice_append_mid (1 :: writeVarint bs.length) T _ (by simp only [List.length_cons]; omega)
      (by omega)
  have hd : P.drop (1 + k + bs.length * 4) = bs.flatten := by
    have e : 1 + k + bs.length * 4 = ((1 : UInt8) :: (writeVarint bs.length ++ T)).length := by
      simp only [List.length_cons, List.length_append]; omega
    have e' : (1 :: (writeVarint bs.length ++ (T ++ bs.flatten)) : Bytes) =
        ((1 : UInt8) :: (writeVarint bs.length ++ T)) ++ bs.flatten := by
      simp only [List.cons_append, List.append_assoc]
    rw [← hP, e', e, List.drop_left]
  have unf : ∀ validate, IndexedSeqWalker.fromPayloadInner P validate =
      (do
        let (len, varintLen) ← sliceVarint (writeVarint bs.length ++ (T ++ bs.flatten))
        let cursor := 1 + varintLen
        if (1 : UInt8) &&& 1 = 0 then .ok ⟨P.drop cursor, none, len⟩
        else do
          let tableBytes ← checkedMul len 4 .deserialize
          let tableEnd ← addU cursor tableBytes
          if P.length < tableEnd then .err .overrun
          else do
            let offsets ← sliceR P cursor tableEnd
            let body := P.drop tableEnd
            if validate then do
              validateSeqPrologue offsets len (body.length % 2 ^ 32)
              .ok ⟨body, some offsets, len⟩
            else .ok ⟨body, some offsets, len⟩) := by
    intro validate; subst hP; rfl
  have au : ∀ a b, a + b < 2 ^ 64 → addU a b = .ok (a + b) := fun a b h => by
    unfold addU; rw [if_pos h]
  have hm : checkedMul bs.length 4 .deserialize = .ok (bs.length * 4) := by
    unfold checkedMul; rw [if_pos (by omega)]
  have run : ∀ validate, IndexedSeqWalker.fromPayloadInner P validate =
      (if validate then do
        validateSeqPrologue T bs.length (bs.flatten.length % 2 ^ 32)
        .ok ⟨bs.flatten, some T, bs.length⟩
      else .ok ⟨bs.flatten, some T, bs.length⟩) := by
    intro validate
    rw [unf, sliceVarint_write _ (by omega)]
    simp only [Res.ok_bind, hk1]
    rw [if_neg (by decide), hm]
    simp only [Res.ok_bind]
    rw [au _ _ (by omega)]
    simp only [Res.ok_bind]
    rw [if_neg (by omega), sliceR_ok (by omega) (by omega), s1, hd]
    rfl
  refine ⟨run false, ?_, ?_⟩
  · intro i hi
    rw [elementBytes_eq (w := ⟨bs.flatten, some T, bs.length⟩) rfl hTl hi]
    have so : ∀ j, j ≤ bs.length → seqOff T bs.flatten bs.length j = ((bs.take j).flatten).length := by
      intro j hj
      unfold seqOff
      by_cases h : j < bs.length
      · rw [if_pos h, hu j h]
      · rw [if_neg h, List.take_of_length_le (by omega)]
    simp only
    rw [so i (by omega), so (i + 1) (by omega)]
    have l1 := take_flatten_length_le bs (i + 1)
    have l2 := take_succ_flatten_length bs i hi
    rw [sliceR_ok (by omega) l1]
    have := slice_flatten_get [] bs i hi
    simp only [List.nil_append, List.length_nil, Nat.zero_add] at this
    rw [this]
  · intro hne
    unfold IndexedSeqWalker.fromPayload
    rw [run, if_pos rfl]
    have hmod : bs.flatten.length % 2 ^ 32 = bs.flatten.length := Nat.mod_eq_of_lt hfit
    have : validateSeqPrologue T bs.length (bs.flatten.length % 2 ^ 32) = .ok () := by
      unfold validateSeqPrologue
      refine (validateStructPrologue_iff (fun j hj => by omega)).1.2 ⟨?_, ?_⟩
      · intro j hj; rw [hu j hj, hmod]; exact take_flatten_length_le _ _
      · intro j hj
        rw [hu j (by omega), hu (j + 1) hj, take_succ_flatten_length _ _ (by omega)]
        have := List.length_pos_iff.2 (hne j hj)
        omega
    rw [this]; rfl

end Revision
