import Verif.Proofs.Alike
import Verif.Props.Derive
import Verif.Props.DeriveEnum
import Verif.Spec.Demo

/-!
# Property C117: a type can be exchanged for a compatible one

Spec: `Spec/Alike.lean` (`Alike`, the type changes that need no new revision; `Listed`, `Retyped`).
-/

namespace Revision

variable {ι : Type}

/-- C117: what was written as an `s` is what would have been written as a `t`; it is read as a `t`, and passed over as
a `t`, with whatever follows it left. -/
theorem C117_alike {cfg : Cfg} {E : Env ι} (hE : E.Lawful) {s t : Ty ι} {f : s.denote E.X → t.denote E.X}
    (h : Alike cfg E s t f) (v : s.denote E.X) (hw : s.WF E v) (hf : t.Fits E (f v)) :
    ∃ b, (s.codec cfg E).toVec v = .ok b ∧ (t.codec cfg E).toVec (f v) = .ok b ∧ t.WF E (f v) ∧
      ∀ rest, (t.codec cfg E).dec (b ++ rest) = .ok (f v, rest) ∧ (t.codec cfg E).skip (b ++ rest) = .ok ((), rest) ∧
        (t.codec cfg E).skipS (b ++ rest) = .ok ((), rest) := by
  have hv := t.valid_of cfg hE (f v) (h.wf v hw) hf
  have L := t.codec_lawful cfg hE
  obtain ⟨b, hb⟩ := L.enc_ok _ hv
  refine ⟨b, (h.enc v hw).symm.trans hb, hb, h.wf v hw, fun rest => ?_⟩
  have hd := L.round_trip _ b hv hb rest
  obtain ⟨u, hs⟩ := L.skip_agree _ _ _ hd
  exact ⟨hd, hs, by rw [L.skipS_eq]; exact hs⟩

/-- `Option<Box<u16>>` becomes `Vec<u64>`, and `BTreeMap<String, u16>` becomes `HashMap<String, usize>`. -/
example : Alike .default demoEnv (.option (.wrap (.int .u16))) (.vec (.int .usize))
      (fun v => (v.map fun n => BitVec.ofInt 64 (IntTy.u16.value n)).toList) ∧
    (Ty.vec (.int .usize)).Fits demoEnv [BitVec.ofInt 64 (IntTy.u16.value 700)] ∧
    ((Ty.option (.wrap (.int .u16))).codec .default demoEnv).toVec (some 700) = .ok [1, 251, 188, 2] ∧
    ((Ty.vec (.int .usize)).codec .default demoEnv).fromSlice [1, 251, 188, 2] = .ok [700] := by
  refine ⟨?_, ?_, by decide +kernel, by decide +kernel⟩
  · have h1 : Alike .default demoEnv (.wrap (.int .u16)) (.int .usize) (fun n => BitVec.ofInt 64 (IntTy.u16.value n)) :=
      .trans (.unbox _) (.widen (k := .u16) (k' := .usize) rfl (by decide) (by decide) rfl)
    exact .trans (.option h1) (.many rfl (.inr fun h => h.2.1 rfl))
  · exact ⟨by decide, by decide, fun _ _ => trivial⟩

/-- C117: whatever is a list of pairs with keys that differ is read as an ordered map of those pairs. -/
theorem C117_to_btree_map {cfg : Cfg} {E : Env ι} (hE : E.Lawful) {s k v : Ty ι}
    {g : s.denote E.X → List (k.denote E.X × v.denote E.X)} (h : Listed cfg E s (.pair k v) g) (x : s.denote E.X)
    (hw : s.WF E x) (hf : (Ty.vector (.pair k v)).Fits E (g x)) (hd : (g x).Pairwise fun a b => E.cmp k a.1 b.1 ≠ .eq) :
    ∃ b w, (s.codec cfg E).toVec x = .ok b ∧ w.Perm (g x) ∧ (Ty.btreeMap k v).WF E w ∧
      ∀ rest, ((Ty.btreeMap k v).codec cfg E).dec (b ++ rest) = .ok (w, rest) := by
  have := hE.trans k
  obtain ⟨b, hb, hr⟩ := h.read hE x hw hf
  have hp := btreeBuild_perm (E.cmp k) Prod.fst (g x) hd
  refine ⟨b, btreeBuild (E.cmp k) Prod.fst (g x), hb, hp, ⟨fun e he => h.wf x hw e (hp.subset he), ?_⟩, hr _ _⟩
  have := btreeBuild_strict (E.cmp k) Prod.fst (g x)
  simp only [StrictAsc, List.pairwise_map] at this
  exact this

/-- C117: the same for sets. -/
theorem C117_to_btree_set {cfg : Cfg} {E : Env ι} (hE : E.Lawful) {s k : Ty ι}
    {g : s.denote E.X → List (k.denote E.X)} (h : Listed cfg E s k g) (x : s.denote E.X)
    (hw : s.WF E x) (hf : (Ty.vector k).Fits E (g x)) (hd : (g x).Pairwise fun a b => E.cmp k a b ≠ .eq) :
    ∃ b w, (s.codec cfg E).toVec x = .ok b ∧ w.Perm (g x) ∧ (Ty.btreeSet k).WF E w ∧
      ∀ rest, ((Ty.btreeSet k).codec cfg E).dec (b ++ rest) = .ok (w, rest) := by
  have := hE.trans k
  obtain ⟨b, hb, hr⟩ := h.read hE x hw hf
  have hp := btreeBuild_perm (E.cmp k) id (g x) hd
  refine ⟨b, btreeBuild (E.cmp k) id (g x), hb, hp, ⟨fun e he => h.wf x hw e (hp.subset he), ?_⟩, hr _ _⟩
  have := btreeBuild_strict (E.cmp k) id (g x)
  simp only [StrictAsc, List.map_id] at this
  exact this

/-- C117: whatever is a list of pairs with keys that differ is read as the hash map of those pairs. -/
theorem C117_to_hash_map {cfg : Cfg} {E : Env ι} (hE : E.Lawful) {s k v : Ty ι}
    {g : s.denote E.X → List (k.denote E.X × v.denote E.X)} (h : Listed cfg E s (.pair k v) g) (x : s.denote E.X)
    (hw : s.WF E x) (hf : (Ty.vector (.pair k v)).Fits E (g x)) (hd : (g x).Pairwise fun a b => E.eq k a.1 b.1 = false) :
    ∃ b, (s.codec cfg E).toVec x = .ok b ∧ (Ty.hashMap k v).WF E (g x) ∧
      ∀ rest, ((Ty.hashMap k v).codec cfg E).dec (b ++ rest) = .ok (g x, rest) := by
  have hw' : (Ty.hashMap k v).WF E (g x) := ⟨h.wf x hw, hd⟩
  have hv := (Ty.hashMap k v).valid_of cfg hE (g x) hw' hf
  obtain ⟨b, hb⟩ := ((Ty.hashMap k v).codec_lawful cfg hE).enc_ok _ hv
  exact ⟨b, (h.enc x).trans hb, hw', fun rest => ((Ty.hashMap k v).codec_lawful cfg hE).round_trip _ b hv hb rest⟩

/-- C117: the same for sets. -/
theorem C117_to_hash_set {cfg : Cfg} {E : Env ι} (hE : E.Lawful) {s k : Ty ι}
    {g : s.denote E.X → List (k.denote E.X)} (h : Listed cfg E s k g) (x : s.denote E.X)
    (hw : s.WF E x) (hf : (Ty.vector k).Fits E (g x)) (hd : (g x).Pairwise fun a b => E.eq k a b = false) :
    ∃ b, (s.codec cfg E).toVec x = .ok b ∧ (Ty.hashSet k).WF E (g x) ∧
      ∀ rest, ((Ty.hashSet k).codec cfg E).dec (b ++ rest) = .ok (g x, rest) := by
  have hw' : (Ty.hashSet k).WF E (g x) := ⟨h.wf x hw, hd⟩
  have hv := (Ty.hashSet k).valid_of cfg hE (g x) hw' hf
  obtain ⟨b, hb⟩ := ((Ty.hashSet k).codec_lawful cfg hE).enc_ok _ hv
  exact ⟨b, (h.enc x).trans hb, hw', fun rest => ((Ty.hashSet k).codec_lawful cfg hE).round_trip _ b hv hb rest⟩

/-- A list of distinct numbers, read as a set of either kind. -/
example : ∃ b, ((Ty.vector (.int .u16)).codec .default demoEnv).toVec [900, 7] = .ok b ∧
    (Ty.hashSet (.int .u16)).WF demoEnv [900, 7] ∧
    ∀ rest, ((Ty.hashSet (.int .u16)).codec .default demoEnv).dec (b ++ rest) = .ok ([900, 7], rest) :=
  C117_to_hash_set (s := .vector (.int .u16)) (k := .int .u16) demoEnv_lawful .vector [900, 7]
    (fun _ _ => trivial) ⟨by decide, by decide, fun _ _ => trivial⟩
    (.cons (fun a ha => by cases List.mem_singleton.1 ha; decide) (.cons nofun .nil))

/-- A hash map in some order, read as an ordered map. -/
example : ∃ b w, ((Ty.hashMap (.int .u16) .string).codec .default demoEnv).toVec [(900, "b"), (7, "a")] = .ok b ∧
    w.Perm [((900 : BitVec 16), "b"), (7, "a")] ∧ (Ty.btreeMap (.int .u16) .string).WF demoEnv w ∧
    ∀ rest, ((Ty.btreeMap (.int .u16) .string).codec .default demoEnv).dec (b ++ rest) = .ok (w, rest) := by
  refine C117_to_btree_map (s := .hashMap (.int .u16) .string) (k := .int .u16) (v := .string) demoEnv_lawful .hashMap
    [(900, "b"), (7, "a")] ⟨?_, ?_⟩ ⟨by decide, by decide, ?_⟩ ?_
  · exact fun _ _ => ⟨trivial, trivial⟩
  · refine .cons (fun a ha => ?_) (.cons nofun .nil)
    cases List.mem_singleton.1 ha
    decide
  · intro e he
    rcases List.mem_cons.1 he with rfl | he
    · exact ⟨trivial, by decide, by decide⟩
    · cases List.mem_singleton.1 he
      exact ⟨trivial, by decide, by decide⟩
  · refine .cons (fun a ha => ?_) (.cons nofun .nil)
    cases List.mem_singleton.1 ha
    decide

/-- C117: the fields of a struct, whatever its history and encoding: data of the current revision, written before the
types of the fields were exchanged, is what would be written now, and is read as the same values in the new types. -/
theorem C117_struct [DecidableEq ι] {cfg : Cfg} {E : Env ι} (hE : E.Lawful) (hc : ∀ i, (E.extC i).CheckLaw)
    (h : List Entry) (hh : ValidHistory h) (fs fs' : List (FieldDecl (Dyn E))) (vs vs' : List (Dyn E))
    (hr : Retyped cfg E h.length fs vs fs' vs') (hty : ∀ f ∈ fs', ∃ name opts t d c, f = tyField cfg E name opts t d c)
    (hn : DistinctNames fs' h.length h.length) (hv : (structC cfg h fs').valid vs') (b : Bytes)
    (hb : (structC cfg h fs).enc vs = .ok b) :
    (structC cfg h fs').enc vs' = .ok b ∧ ∀ t, (structC cfg h fs').dec (b ++ t) = .ok (vs', t) := by
  have e := Retyped.enc (h := h) (by rw [hh.lastEntry_revision, hh.latest_eq]) (by rw [hh.latest_eq]; exact hr)
  rw [← e] at hb
  exact ⟨hb, fun t => C49_round_trip_types cfg hE hc h hh fs' hty hn vs' b t hv hb⟩

/-- A counter of 16 bits gets 64, in an optimised revision. -/
example :
    let h : List Entry := [.legacy 1, ⟨2, true, true⟩]
    let opts : FieldOptions := {}
    let fs : List (FieldDecl (Dyn demoEnv)) := [tyField .default demoEnv "n" opts (.int .u16) (fun _ => .ok 0) (fun _ _ l => .ok l)]
    let fs' : List (FieldDecl (Dyn demoEnv)) := [tyField .default demoEnv "n" opts (.int .u64) (fun _ => .ok 0) (fun _ _ l => .ok l)]
    ValidHistory h ∧ Retyped .default demoEnv h.length fs [⟨.int .u16, 700⟩] fs' [⟨.int .u64, 700⟩] ∧
      (structC .default h fs').valid [⟨.int .u64, 700⟩] ∧
      (structC .default h fs).enc [⟨.int .u16, 700⟩] = .ok [2, 7, 0, 0, 0, 4, 0, 0, 0, 251, 188, 2] := by
  refine ⟨⟨by decide, by decide, by decide⟩, ?_, ⟨⟨_, rfl, trivial⟩, rfl⟩, by decide +kernel⟩
  exact .move (cfg := .default) (E := demoEnv) (s := .int .u16) (t := .int .u64) (f := fun v => BitVec.ofInt 64 (IntTy.u16.value v)) _ _ _ _ rfl ⟨rfl, rfl, rfl, rfl, rfl⟩
    (.widen (k := .u16) (k' := .u64) rfl (by decide) (by decide) rfl) (700 : BitVec 16) trivial .nil

/-- C117: the fields of the variants of an enum likewise: `us` is the enum before and `us'` after the types of fields were exchanged, the
attributes staying as they are. -/
theorem C117_enum [DecidableEq ι] {cfg : Cfg} {E : Env ι} (hE : E.Lawful) (hc : ∀ i, (E.extC i).CheckLaw)
    (h : List Entry) (hh : ValidHistory h) (us us' : List (VariantDecl (Dyn E)))
    (hsig : us'.map VariantDecl.sig = us.map VariantDecl.sig) (hA : AcceptedEnum (lastEntry h) us')
    (hty : ∀ v ∈ us', ∀ f ∈ v.fields, ∃ name opts t d c, f = tyField cfg E name opts t d c)
    (hn : ∀ v ∈ us', v.existsAt h.length = true → DistinctNames v.fields h.length h.length)
    (k : Nat) (v v' : VariantDecl (Dyn E)) (hk : us[k]? = some v) (hk' : us'[k]? = some v') (hx : v'.existsAt h.length = true)
    (vs vs' : List (Dyn E)) (hr : Retyped cfg E h.length v.fields vs v'.fields vs')
    (hv : (enumC cfg h us').valid ⟨v'.ident, vs'⟩) (b : Bytes) (hb : (enumC cfg h us).enc ⟨v.ident, vs⟩ = .ok b) :
    (enumC cfg h us').enc ⟨v'.ident, vs'⟩ = .ok b ∧ ∀ t, (enumC cfg h us').dec (b ++ t) = .ok (⟨v'.ident, vs'⟩, t) := by
  have e := Retyped.enumEnc (h := h) (by rw [hh.lastEntry_revision, hh.latest_eq]) hsig hA hk hk' (by rw [hh.latest_eq]; exact hx)
    (by rw [hh.latest_eq]; exact hr)
  rw [← e] at hb
  refine ⟨hb, fun t => C53_round_trip_partial cfg h hh us' hA (fun v hv _ f hf _ => ?_) hn _ b t hv hb⟩
  obtain ⟨name, opts, ty, d, c, rfl⟩ := hty v hv f hf
  exact tyField_variantWire_faithful cfg hE hc name opts ty d c _

/-- `enum Event { Stop, Move(u16, bool) }`, in an optimised revision; with `t` for `u16`. -/
def eventVariants (t : Ty Empty) : List (VariantDecl (Dyn demoEnv)) :=
  [⟨"Stop", { size := some .inline }, [], fun _ _ => .panic⟩,
   ⟨"Move", { size := some .varlen }, [tyField .default demoEnv "field_0" {} t (fun _ => .panic) (fun _ _ l => .ok l),
     tyField .default demoEnv "field_1" {} .bool (fun _ => .panic) (fun _ _ l => .ok l)], fun _ _ => .panic⟩]

theorem event_accepted (t : Ty Empty) : AcceptedEnum ⟨1, true, false⟩ (eventVariants t) := by
  refine ⟨by unfold DistinctVariants; simp [eventVariants, VariantDecl.sig, VariantSig.existsAt, existsAt],
    ⟨[("Move", 1), ("Stop", 0)], rfl, fun n d h => ?_⟩, fun _ => rfl⟩
  have := mem_of_lookup_eq_some _ _ _ h
  simp only [List.mem_cons, Prod.mk.injEq, List.not_mem_nil, or_false] at this
  omega

/-- `Move(700, true)` written with 16 bits is read with 64. -/
example (t : Bytes) : (enumC .default [⟨1, true, false⟩] (eventVariants (.int .u64))).dec ([1, 65, 4, 0, 0, 0, 251, 188, 2, 1] ++ t) =
    .ok (⟨"Move", [⟨.int .u64, (700 : BitVec 64)⟩, ⟨.bool, true⟩]⟩, t) := by
  have hb : (enumC .default [⟨1, true, false⟩] (eventVariants (.int .u16))).enc ⟨"Move", [⟨.int .u16, (700 : BitVec 16)⟩, ⟨.bool, true⟩]⟩ =
      .ok [1, 65, 4, 0, 0, 0, 251, 188, 2, 1] := by decide +kernel
  refine (C117_enum demoEnv_lawful (fun i => nomatch i) [⟨1, true, false⟩] ⟨by decide, by decide, by decide⟩ (eventVariants (.int .u16))
    (eventVariants (.int .u64)) rfl (event_accepted _) ?_ ?_ 1 _ _ rfl rfl rfl [⟨.int .u16, (700 : BitVec 16)⟩, ⟨.bool, true⟩]
    [⟨.int .u64, (700 : BitVec 64)⟩, ⟨.bool, true⟩] ?_ ?_ _ hb).2 t
  · intro v hv f hf
    simp only [eventVariants, List.mem_cons, List.not_mem_nil, or_false] at hv
    rcases hv with rfl | rfl
    · cases hf
    · simp only [List.mem_cons, List.not_mem_nil, or_false] at hf
      rcases hf with rfl | rfl <;> exact ⟨_, _, _, _, _, rfl⟩
  · intro v hv _
    simp only [eventVariants, List.mem_cons, List.not_mem_nil, or_false] at hv
    rcases hv with rfl | rfl <;> simp [DistinctNames, tyField, FieldDecl.existsAt, existsAt]
  · exact .move (cfg := .default) (E := demoEnv) (s := .int .u16) (t := .int .u64) (f := fun v => BitVec.ofInt 64 (IntTy.u16.value v))
      _ _ _ _ rfl ⟨rfl, rfl, rfl, rfl, rfl⟩ (.widen (k := .u16) (k' := .u64) rfl (by decide) (by decide) rfl) (700 : BitVec 16) trivial
      (.keep _ rfl .nil)
  · exact ⟨1, _, .tail _ (.head _), rfl, ⟨⟨_, rfl, trivial⟩, ⟨_, rfl, trivial⟩, rfl⟩, fun _ => trivial⟩

/-- C117: changes that look alike and are not.  A byte is read as a wider number only below 251; with `fixed-width-encoding`
no number gets wider; with `specialised-vectors` neither do the numbers of a `Vec`, nor may it become an `imbl::Vector`,
nor an `Option` a `Vec`. -/
theorem C117_not_alike :
    (∀ v : BitVec 8, ((Ty.int .u16).codec .default demoEnv).fromSlice (encInt .default .u8 v) = .ok (v.setWidth 16) ↔ v.toNat < 251) ∧
    ((Ty.int .u32).codec ⟨true, true⟩ demoEnv).fromSlice (encInt ⟨true, true⟩ .u16 5) = .err .io ∧
    (((Ty.vec (.int .u16)).codec .default demoEnv).toVec [5, 6] = .ok [2, 5, 0, 6, 0] ∧
      ((Ty.vec (.int .u32)).codec .default demoEnv).fromSlice [2, 5, 0, 6, 0] = .err .io ∧
      ((Ty.vector (.int .u16)).codec .default demoEnv).fromSlice [2, 5, 0, 6, 0] = .ok [5, 0]) ∧
    (((Ty.option (.int .u16)).codec .default demoEnv).toVec (some 5) = .ok [1, 5] ∧
      ((Ty.vec (.int .u16)).codec .default demoEnv).fromSlice [1, 5] = .err .io) := by
  refine ⟨by decide +kernel, by decide +kernel, ⟨by decide +kernel, by decide +kernel, by decide +kernel⟩,
    by decide +kernel, by decide +kernel⟩

end Revision
