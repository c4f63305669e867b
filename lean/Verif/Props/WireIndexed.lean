import Verif.Proofs.WireIndexed
import Verif.Proofs.DeriveWalk
import Verif.Props.Indexed
import Verif.Props.Derive
import Verif.Props.DeriveEnum

/-! # Property C72: the layouts of indexed collections and derived types -/

namespace Revision

open Wire

theorem sort_eq {α : Type} (key : α → Bytes) {l s : List α} (hp : s.Perm l)
    (hasc : (s.map key).Pairwise fun a b => cmpBytes a b = .lt) :
    (l.mergeSort fun a b => (cmpBytes (key a) (key b)).isLE) = s := by
  have hn : (s.map key).Nodup := hasc.imp fun {a b} h e => by
    subst e; rw [cmpBytes_self] at h; cases h
  have hn' : (l.map key).Nodup := (hp.map key).nodup_iff.1 hn
  refine List.Perm.eq_of_pairwise (le := fun a b => cmpBytes (key a) (key b) = .lt) ?_
    (List.pairwise_map.1 (sorted_asc key l hn')) (List.pairwise_map.1 hasc)
    ((sorted_perm key l).trans hp.symm)
  intro a b _ _ x y
  have := cmpBytes_lt_trans x y
  rw [cmpBytes_self] at this; cases this

theorem encEach_zip {k : κ → Res Bytes} {v : ν → Res Bytes} : ∀ {m : List (κ × ν)} {ks vs : List Bytes},
    encEach k (m.map Prod.fst) = .ok ks → encEach v (m.map Prod.snd) = .ok vs →
    encEach (encPair k v) m = .ok (ks.zip vs)
  | [], ks, vs, h1, h2 => by cases h1; cases h2; rfl
  | e :: m, ks, vs, h1, h2 => by
    obtain ⟨a, ks', rfl, h1, h1'⟩ := encEach_cons.1 h1
    obtain ⟨b, vs', rfl, h2, h2'⟩ := encEach_cons.1 h2
    refine encEach_cons.2 ⟨(a, b), ks'.zip vs', rfl, ?_, encEach_zip h1' h2'⟩
    unfold encPair; rw [h1, Res.ok_bind, h2]; rfl

section
variable {α κ ν : Type} (c : Codec α) (k : Codec κ) (v : Codec ν)

/-- C72: an indexed sequence whose elements serialise to `parts`. -/
theorem C72_seq (l : List α) (parts : List Bytes) (hp : Forms c.enc l parts)
    (hlen : parts.length < 2 ^ 64) (hsize : 8 ≤ parts.length → parts.flatten.length < 2 ^ 32) :
    serializeIndexedSeq c.enc l = .ok (indexedSeq parts) := by
  unfold serializeIndexedSeq
  rw [forms_iff.2 hp, Res.ok_bind]
  exact writeSeqBodies_eq hlen hsize

/-- C72: an indexed set is laid out as the sequence of its serialised elements in ascending byte
order, in whatever order they are presented. -/
theorem C72_set (l : List α) (parts sorted : List Bytes) (hp : Forms c.enc l parts)
    (hs : sorted.Perm parts) (hasc : Ascending sorted) (hlen : parts.length < 2 ^ 64)
    (hsize : 8 ≤ parts.length → parts.flatten.length < 2 ^ 32) :
    serializeIndexedSet c.enc l = .ok (indexedSeq sorted) := by
  unfold serializeIndexedSet
  have hsort := sort_eq id hs (by simpa [Ascending] using hasc)
  simp only [id] at hsort
  rw [forms_iff.2 hp, Res.ok_bind, hsort]
  have e : parts.flatten.length = sorted.flatten.length := hs.symm.flatten.length_eq
  exact writeSeqBodies_eq (by rw [hs.length_eq]; exact hlen) fun h => by
    rw [← e]; exact hsize (by rw [← hs.length_eq]; exact h)

/-- C72: every set of distinct values has such an order, so `C72_set` says what is written for it. -/
theorem C72_set_sorted (hc : c.Faithful) (l : List α) (hvalid : ∀ a ∈ l, c.valid a) (hd : l.Nodup)
    (parts : List Bytes) (hp : Forms c.enc l parts) : ∃ sorted, sorted.Perm parts ∧ Ascending sorted :=
  ⟨_, sorted_perm id parts, by
    have := sorted_asc id parts (by simpa using enc_nodup hc hvalid hd (forms_iff.2 hp))
    simpa [Ascending] using this⟩

/-- C72: an indexed map is laid out with its entries in ascending byte order of the serialised keys,
in whatever order they are presented. -/
theorem C72_map (m : List (κ × ν)) (ks vs : List Bytes) (hk : Forms k.enc (m.map Prod.fst) ks)
    (hv : Forms v.enc (m.map Prod.snd) vs) (sorted : List (Bytes × Bytes)) (hs : sorted.Perm (ks.zip vs))
    (hasc : Ascending (sorted.map Prod.fst)) (hlen : m.length < 2 ^ 64)
    (hsize : 8 ≤ m.length → ks.flatten.length < 2 ^ 32 ∧ vs.flatten.length < 2 ^ 32) :
    serializeIndexedEntries k.enc v.enc m = .ok (indexedMap sorted) := by
  have hkl : ks.length = m.length := by simpa [Forms] using (congrArg List.length hk).symm
  have hvl : vs.length = m.length := by simpa [Forms] using (congrArg List.length hv).symm
  have hz : encEach (encPair k.enc v.enc) m = .ok (ks.zip vs) := encEach_zip (forms_iff.2 hk) (forms_iff.2 hv)
  unfold serializeIndexedEntries
  rw [hz, Res.ok_bind, sort_eq Prod.fst hs hasc]
  have hl : sorted.length = m.length := by rw [hs.length_eq]; simp [hkl, hvl]
  have e1 : (sorted.map Prod.fst).flatten.length = ks.flatten.length := by
    rw [(hs.map Prod.fst).flatten.length_eq, List.map_fst_zip (by omega)]
  have e2 : (sorted.map Prod.snd).flatten.length = vs.flatten.length := by
    rw [(hs.map Prod.snd).flatten.length_eq, List.map_snd_zip (by omega)]
  exact writeMapPairs_eq (by omega) fun h => by rw [e1, e2]; exact hsize (by omega)

/-- C72: every map with distinct keys has such an order, so `C72_map` says what is written for it. -/
theorem C72_map_sorted (hf : k.Faithful) (m : List (κ × ν)) (hvalid : ∀ e ∈ m, k.valid e.1)
    (hd : (m.map Prod.fst).Nodup) (ks vs : List Bytes) (hk : Forms k.enc (m.map Prod.fst) ks)
    (hv : Forms v.enc (m.map Prod.snd) vs) :
    ∃ sorted : List (Bytes × Bytes), sorted.Perm (ks.zip vs) ∧ Ascending (sorted.map Prod.fst) := by
  have hkl : ks.length = m.length := by simpa [Forms] using (congrArg List.length hk).symm
  have hvl : vs.length = m.length := by simpa [Forms] using (congrArg List.length hv).symm
  refine ⟨_, sorted_perm Prod.fst (ks.zip vs), ?_⟩
  refine sorted_asc Prod.fst (ks.zip vs) ?_
  rw [List.map_fst_zip (by omega)]
  refine enc_nodup hf (l := m.map Prod.fst) ?_ hd (forms_iff.2 hk)
  intro a ha
  obtain ⟨e, he, rfl⟩ := List.mem_map.1 ha
  exact hvalid e he

end

variable {V : Type}

/-- C72: the record of a struct whose live fields serialise to `fields`. -/
theorem C72_struct (cfg : Cfg) (h : List Entry) (hh : ValidHistory h) (fs : List (FieldDecl V))
    (vs : List V) (fields : List Bytes)
    (he : Encodes (fun f => f.wire (lastEntry h)) (aliveFields fs h.length) vs fields)
    (hsize : 4 * fields.length + fields.flatten.length < 2 ^ 32) :
    (structC cfg h fs).enc vs =
      .ok (structRecord cfg h.length (lastEntry h).optimised (lastEntry h).indexedStruct fields) := by
  refine (C48_layout cfg h hh fs vs he.length_eq.1 _).2 ⟨fields, he, fun _ => ?_, (structRecord_eq cfg h hh fields).symm⟩
  unfold structPayload
  split
  · rw [List.length_append, offsetTable_length]; omega
  · omega

example := C72_set_sorted (intC .default .u16) ((intC_lawful .default .u16).faithful (intC_checks _ _)) [300, 9, 7]
  (fun _ _ => trivial) (by decide) [[251, 44, 1], [9], [7]] rfl

example := C72_map_sorted (intC .default .u16) boolC ((intC_lawful .default .u16).faithful (intC_checks _ _))
  [(300, true), (9, false)] (fun _ _ => trivial) (by decide) [[251, 44, 1], [9]] [[1], [0]] rfl rfl

/-- C72: the record of an enum value whose live fields serialise to `fields`. -/
theorem C72_enum (cfg : Cfg) (h : List Entry) (hh : ValidHistory h) (vs : List (VariantDecl V))
    (hA : AcceptedEnum (lastEntry h) vs) (v : VariantDecl V) (hv : v ∈ vs) (ha : v.existsAt h.length = true)
    (d : Nat) (hd : VariantDecl.discAt vs h.length v d) (xs : List V) (fields : List Bytes)
    (he : Encodes (fun f => f.variantWire (lastEntry h)) (aliveFields v.fields h.length) xs fields)
    (hsize : fields.flatten.length < 2 ^ 32) :
    (enumC cfg h vs).enc ⟨v.ident, xs⟩ =
      .ok (enumRecord cfg h.length (lastEntry h).optimised d (v.opts.size.getD .inline) fields) := by
  have hrev := hh.lastEntry_revision
  have harm : (d, v) ∈ variantArms vs (lastEntry h).revision := by
    obtain ⟨D, hD, hl⟩ := hd
    rw [hrev]
    have := hA.discsAt
    rw [hrev, hD] at this
    cases this
    exact mem_variantArms.2 ⟨hv, ha, hl⟩
  have h1 := hA.disc_lt harm
  have h2 := fun ho => hA.disc_lt_32 ho harm
  rw [← enumRecord_eq cfg h hh d h1 h2]
  exact (C53_layout cfg h hh vs hA v hv ha xs he.length_eq.1 _).2 ⟨d, fields, hd, he, fun _ _ => hsize, rfl⟩

/-! ### The hypotheses can be met -/

/-- Three elements, without a table. -/
example : serializeIndexedSeq (intC .default .u16).enc [7, 300, 9] = .ok ([0, 3] ++ [7, 251, 44, 1, 9]) :=
  C72_seq (intC .default .u16) [7, 300, 9] [[7], [251, 44, 1], [9]] rfl (by decide) (by decide)

/-- Eight elements, with a table. -/
example : serializeIndexedSeq (intC .default .u16).enc [7, 300, 9, 1, 2, 3, 4, 5] =
    .ok ([1, 8] ++ [0, 0, 0, 0, 1, 0, 0, 0, 4, 0, 0, 0, 5, 0, 0, 0, 6, 0, 0, 0, 7, 0, 0, 0, 8, 0, 0, 0,
      9, 0, 0, 0] ++ [7, 251, 44, 1, 9, 1, 2, 3, 4, 5]) :=
  C72_seq (intC .default .u16) [7, 300, 9, 1, 2, 3, 4, 5]
    [[7], [251, 44, 1], [9], [1], [2], [3], [4], [5]] rfl (by decide) (by decide)

/-- A set presented out of order. -/
example : serializeIndexedSet (intC .default .u16).enc [300, 9, 7] = .ok ([0, 3] ++ [7, 9, 251, 44, 1]) :=
  C72_set (intC .default .u16) [300, 9, 7] [[251, 44, 1], [9], [7]] [[7], [9], [251, 44, 1]] rfl
    (by decide) (by unfold Ascending; decide) (by decide) (by decide)

/-- The ten entries of `demoIndexed`. -/
example : serializeIndexedEntries (intC .default .u8).enc (intC .default .u8).enc demoIndexed =
    .ok ([1, 10] ++ ((List.range 10).flatMap fun i => [UInt8.ofNat i, 0, 0, 0, UInt8.ofNat i, 0, 0, 0]) ++
      [10, 0, 0, 0, 10, 0, 0, 0] ++ [1, 2, 3, 4, 5, 6, 7, 8, 9, 200] ++
      [10, 20, 30, 40, 50, 60, 70, 80, 90, 1]) :=
  C72_map (intC .default .u8) (intC .default .u8) demoIndexed
    [[5], [200], [3], [4], [9], [6], [7], [1], [8], [2]]
    [[50], [1], [30], [40], [90], [60], [70], [10], [80], [20]] rfl rfl
    [([1], [10]), ([2], [20]), ([3], [30]), ([4], [40]), ([5], [50]), ([6], [60]), ([7], [70]),
      ([8], [80]), ([9], [90]), ([200], [1])]
    (by decide) (by unfold Ascending; decide) (by decide) (by decide)

/-- The demonstration struct, at a revision with an indexed encoding. -/
example : (structC .default demoHistory (demoFields .default)).enc [DV.u32 7, DV.u32 300, DV.u32s [5]] =
    .ok ([3] ++ [19, 0, 0, 0] ++ [12, 0, 0, 0, 13, 0, 0, 0, 16, 0, 0, 0] ++ [7] ++ [251, 44, 1] ++
      [0, 1, 5]) :=
  C72_struct .default demoHistory ⟨by decide, by decide, by decide⟩ (demoFields .default) [DV.u32 7, DV.u32 300, DV.u32s [5]]
    [[7], [251, 44, 1], [0, 1, 5]] (.cons rfl (.cons rfl (.cons rfl .nil))) (by decide)

/-- A value of the demonstration enum, at an optimised revision. -/
example : ∃ v ∈ demoVariants .default, v.ident = "B" ∧
    (enumC .default demoEnumHistory (demoVariants .default)).enc ⟨v.ident, [DV.u32 7, DV.u32 300]⟩ =
      .ok ([3] ++ [64 + 2] ++ [4, 0, 0, 0] ++ [7] ++ [251, 44, 1]) := by
  have hm : ∃ v ∈ demoVariants .default, v.ident = "B" ∧ v.existsAt 3 = true ∧
      VariantDecl.discAt (demoVariants .default) 3 v 2 ∧ v.opts.size = some .varlen ∧
      Encodes (fun f => f.variantWire (lastEntry demoEnumHistory)) (aliveFields v.fields 3)
        [DV.u32 7, DV.u32 300] [[7], [251, 44, 1]] :=
    ⟨(demoVariants .default)[2], List.getElem_mem (by decide), rfl, rfl,
      ⟨[("B", 2), ("X", 1), ("A", 0)], rfl, rfl⟩, rfl, .cons rfl (.cons rfl .nil)⟩
  obtain ⟨v, hv, hi, ha, hd, hs, he⟩ := hm
  refine ⟨v, hv, hi, ?_⟩
  have := C72_enum .default demoEnumHistory demoEnum_history (demoVariants .default)
    (demoEnum_accepted _ (by decide)) v hv ha 2 hd _ _ he (by decide)
  rw [this, hs]; rfl

end Revision
