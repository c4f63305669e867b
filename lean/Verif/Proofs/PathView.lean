import Verif.Proofs.Path
import Verif.Proofs.PathDerive
import Verif.Props.Lookup

/-! Helper lemmas: following paths through the views of indexed fields. -/

namespace Revision

/-- On the bytes of a value the function gives what `f` says of the value. -/
def Codec.ViewFinds {α β : Type} (c : Codec α) (m : Bytes → Res (Option β)) (f : α → Option β) : Prop :=
  ∀ v b, c.valid v → c.enc v = .ok b → m b = .ok (f v)

section
variable {κ α β : Type} {k : Codec κ} {v c : Codec α} {item : Rd (Option β)} {f : α → Option β}

theorem Rd.Finds.within (h : Rd.Finds c item f) {a : α} {b : Bytes} (ha : c.valid a) (hb : c.enc a = .ok b) :
    item.within b = .ok (f a) := by
  obtain ⟨r, hr⟩ := h a b ha hb []
  rw [List.append_nil] at hr
  exact within_ok hr

theorem scanItem_run (hc : c.Faithful) (hi : Rd.Finds c item f) (t : Bytes) :
    ∀ (l : List α) (bs : List Bytes) (i : Nat) (hil : i < l.length),
    (∀ a ∈ l, c.valid a) → encEach c.enc l = .ok bs → ∃ r, scanItem c.skip item i (bs.flatten ++ t) = .ok (f l[i], r)
  | [], _, i, hi, _, _ => by simp at hi
  | a :: l, bs, i, hil, hval, h => by
    obtain ⟨b, bs', rfl, hb, hbs⟩ := encEach_cons.1 h
    have ha := hval a List.mem_cons_self
    rw [List.flatten_cons, List.append_assoc]
    cases i with
    | zero => exact hi a b ha hb _
    | succ i =>
      obtain ⟨r, hr⟩ := scanItem_run hc hi t l bs' i (by simpa using hil)
        (fun x hx => hval x (List.mem_cons_of_mem _ hx)) hbs
      refine ⟨r, ?_⟩
      simp only [scanItem]
      rw [Rd.bind_of_ok (hc.skip_after a b ha hb _), hr]
      rfl

theorem seqFind_right (hc : c.Faithful) (hi : Rd.Finds c item f) (l : List α) (hlen : l.length < 2 ^ 56)
    (hvalid : ∀ a ∈ l, c.valid a) (hsmall : SmallEach c.enc l) (i : Nat)
    (hne : ∀ a ∈ l, c.enc a ≠ .ok []) {x : Bytes}
    (hx : serializeIndexedSeq c.enc l = .ok x) : seqFind c item i x = .ok (l[i]?.bind f) := by
  by_cases h8 : 8 ≤ l.length
  · obtain ⟨w, -, w2, w3, w4, -, w5⟩ := C42_random_access l h8 hlen hsmall x hx
    have w1 := w5 fun i hi => hne _ (List.getElem_mem _)
    unfold seqFind
    rw [w1, Res.ok_bind]
    by_cases hil : i < l.length
    · obtain ⟨e, he, hel⟩ := w4 i hil
      rw [w3, if_pos hil, w2, if_pos rfl, hel, Res.ok_bind, hi.within (hvalid _ (List.getElem_mem hil)) he,
        List.getElem?_eq_getElem hil]
      rfl
    · rw [w3, if_neg hil, List.getElem?_eq_none (by omega)]
      rfl
  · obtain ⟨bs, h1, h2⟩ := Res.bind_eq_ok.1 hx
    have hl := encEach_length h1
    rcases writeSeqBodies_ok h2 with ⟨_, rfl⟩ | ⟨h, _⟩
    · unfold seqFind
      rw [short_seq_walker (by omega), Res.ok_bind, hl]
      simp only [IndexedSeqWalker.isIndexed, Option.isSome_none, Bool.false_eq_true, if_false]
      by_cases hil : i < l.length
      · obtain ⟨r, hr⟩ := scanItem_run hc hi [] l bs i hil hvalid h1
        rw [List.append_nil] at hr
        rw [if_pos hil, within_ok hr, List.getElem?_eq_getElem hil]
        rfl
      · rw [if_neg hil, List.getElem?_eq_none (by omega)]
        rfl
    · omega

theorem scanKey_run (hk : k.Faithful) (hv : v.Faithful) (hi : Rd.Finds v item f) (kb t : Bytes) :
    ∀ (m : List (κ × α)) (ps : List (Bytes × Bytes)),
    (∀ e ∈ m, k.valid e.1 ∧ v.valid e.2) → encEach (encPair k.enc v.enc) m = .ok ps →
    ∃ r, scanKey k v item kb m.length ((ps.map fun p => p.1 ++ p.2).flatten ++ t) =
      .ok ((m.find? fun e => k.enc e.1 = .ok kb).bind fun e => f e.2, r)
  | [], ps, _, h => ⟨_, rfl⟩
  | e :: m, ps, hval, h => by
    obtain ⟨p, ps', rfl, hp, hps⟩ := encEach_cons.1 h
    obtain ⟨h1, h2⟩ := encPair_ok.1 hp
    obtain ⟨hv1, hv2⟩ := hval e List.mem_cons_self
    simp only [List.map_cons, List.flatten_cons, List.append_assoc, List.length_cons, scanKey]
    rw [Rd.bind_of_ok (hk.round_trip _ _ hv1 h1 _)]
    by_cases he : k.enc e.1 = .ok kb
    · rw [if_pos he, List.find?_cons_of_pos (by simpa using he)]
      exact hi _ _ hv2 h2 _
    · rw [if_neg he, List.find?_cons_of_neg (by simpa using he), Rd.bind_of_ok (hv.skip_after _ _ hv2 h2 _)]
      exact scanKey_run hk hv hi kb t m ps' (fun x hx => hval x (List.mem_cons_of_mem _ hx)) hps

/-- Which entry has a key does not depend on the order if there is at most one. -/
theorem find_key_unique (hk : k.Faithful) {m : List (κ × α)} (hvalid : ∀ e ∈ m, k.valid e.1)
    (hd : (m.map Prod.fst).Nodup) (kb : Bytes) {e : κ × α} (he : e ∈ m) (hek : k.enc e.1 = .ok kb) :
    (m.find? fun e => k.enc e.1 = .ok kb) = some e := by
  cases hf : m.find? fun e => k.enc e.1 = .ok kb with
  | none => exact absurd hek (by simpa using List.find?_eq_none.1 hf e he)
  | some e' =>
    have hm := List.mem_of_find?_eq_some hf
    have hp : k.enc e'.1 = .ok kb := by simpa using List.find?_some hf
    have hee : e'.1 = e.1 := hk.inj (hvalid e' hm) (hvalid e he) hp hek
    obtain ⟨i, hi, e1⟩ := List.getElem_of_mem hm
    obtain ⟨j, hj, e2⟩ := List.getElem_of_mem he
    have hij : i = j := by
      refine (List.getElem_inj (xs := m.map Prod.fst) (h₀ := by rw [List.length_map]; exact hi)
        (h₁ := by rw [List.length_map]; exact hj) hd).1 ?_
      rw [List.getElem_map, List.getElem_map, e1, e2, hee]
    subst hij
    rw [← e1, ← e2]

theorem mapFind_right (hk : k.Faithful) (hv : v.Faithful) (hi : Rd.Finds v item f) (m : List (κ × α))
    (hlen : m.length < 2 ^ 56)
    (hvalid : ∀ e ∈ m, k.valid e.1 ∧ v.valid e.2) (hd : (m.map Prod.fst).Nodup)
    (hsmall : SmallPairs k.enc v.enc m) (kb : Bytes)
    (hne : ∀ e ∈ m, k.enc e.1 ≠ .ok [] ∧ v.enc e.2 ≠ .ok []) {x : Bytes}
    (hx : serializeIndexedEntries k.enc v.enc m = .ok x) :
    mapFind k v item kb x = .ok ((m.find? fun e => k.enc e.1 = .ok kb).bind fun e => f e.2) := by
  have hvk := fun e he => (hvalid e he).1
  by_cases h8 : 8 ≤ m.length
  · obtain ⟨w, w1, w2, w4⟩ := C41_probe hk m h8 hlen hvk hd hsmall (fun e he => (hne e he).2) x hx
    obtain ⟨q1, q2⟩ := w4 kb
    have hl : w.legacyBody = none := by
      unfold IndexedMapWalker.legacyBody
      simp only [IndexedMapWalker.isIndexed, Option.isSome_iff_exists] at w2
      obtain ⟨p, hp⟩ := w2
      rw [hp]
    unfold mapFind
    rw [w1, Res.ok_bind, hl]
    simp only
    by_cases hin : ∃ e ∈ m, k.enc e.1 = .ok kb
    · obtain ⟨e, he, hek⟩ := hin
      obtain ⟨ps, h1, -⟩ := Res.bind_eq_ok.1 hx
      obtain ⟨vb, hvb⟩ : ∃ vb, v.enc e.2 = .ok vb := by
        obtain ⟨i, hi, e'⟩ := List.getElem_of_mem he
        have := encEach_get h1 i hi (by rw [encEach_length h1]; exact hi)
        rw [e'] at this
        exact ⟨_, (encPair_ok.1 this).2⟩
      rw [(q1 vb).2 ⟨e, he, hek, hvb⟩, Res.ok_bind, find_key_unique hk hvk hd kb he hek]
      exact hi.within (hvalid _ he).2 hvb
    · have hno : ∀ e ∈ m, k.enc e.1 ≠ .ok kb := fun e he hek => hin ⟨e, he, hek⟩
      rw [q2.2 hno, Res.ok_bind, List.find?_eq_none.2 (fun e he => by simpa using hno e he)]
      rfl
  · obtain ⟨ps, l', h1, hp, he, hw⟩ := serializeIndexedEntries_ok hx
    have hl := encEach_length he
    have hl' := hp.length_eq
    rcases writeMapPairs_ok hw with ⟨_, rfl⟩ | ⟨h, _⟩
    · have hvalid' : ∀ e ∈ l', k.valid e.1 ∧ v.valid e.2 := fun e he => hvalid e (hp.mem_iff.2 he)
      obtain ⟨r, hr⟩ := scanKey_run hk hv hi kb [] l' _ hvalid' he
      rw [List.append_nil, ← hl] at hr
      unfold mapFind
      rw [short_map_walker (by omega), Res.ok_bind]
      refine (within_ok hr).trans ?_
      congr 2
      by_cases hin : ∃ e ∈ m, k.enc e.1 = .ok kb
      · obtain ⟨e, he, hek⟩ := hin
        rw [find_key_unique hk hvk hd kb he hek, find_key_unique hk (fun e he => (hvalid' e he).1)
          ((hp.map _).nodup_iff.1 hd) kb (hp.mem_iff.1 he) hek]
      · have hno : ∀ e ∈ m, k.enc e.1 ≠ .ok kb := fun e he hek => hin ⟨e, he, hek⟩
        have n1 : (l'.find? fun e => k.enc e.1 = .ok kb) = none :=
          List.find?_eq_none.2 fun e he => by simpa using hno e (hp.mem_iff.2 he)
        have n2 : (m.find? fun e => k.enc e.1 = .ok kb) = none :=
          List.find?_eq_none.2 fun e he => by simpa using hno e he
        rw [n1, n2]
    · omega

end

variable {ι : Type}

theorem Ty.viewStep_finds {β : Type} (cfg : Cfg) {E : Env ι} (hx : ∀ i, (E.extC i).Faithful)
    (hcmp : ∀ t, Std.TransCmp (E.cmp t)) (heq : ∀ t a, E.eq t a a = true)
    {get : (t : Ty ι) → Get (t.denote E.X) β} {inner : (t : Ty ι) → t.denote E.X → Option β}
    {einner : (i : ι) → E.X i → Option β} {Op Wt : Ty ι → Prop} (s : Step)
    (hget : ∀ t, Op t → (get t).Finds (t.codec cfg E) (inner t))
    (hwt : ∀ t, Wt t → ∀ v, (t.codec cfg E).enc v ≠ .ok []) (t : Ty ι) (ho : t.openView Wt Op s) :
    (indexedOf cfg E t).ViewFinds (fun b => t.viewStep cfg E get s b)
      (t.stepInto (fun t => (t.codec cfg E).enc) inner einner s) := by
  have hf := fun t : Ty ι => t.codec_faithful_of cfg hx
  have hr := fun t h => Get.read_finds (hf t) (hget t h)
  intro val b hv hb
  cases t with
  | vec t | vector t =>
    obtain ⟨h1, -, h3, h4⟩ := hv
    cases s with
    | elem k =>
      obtain ⟨ow, oi⟩ := ho k rfl
      exact seqFind_right (hf t) (hr t oi) val h1 h3 h4 k (fun a _ => hwt t ow a) hb
    | _ => rfl
  | btreeMap k v =>
    obtain ⟨h1, -, -, h4, h5, h6⟩ := hv
    cases s with
    | key kb =>
      obtain ⟨wk, wv, oi⟩ := ho.1 kb rfl
      exact mapFind_right (hf k) (hf v) (hr v oi) val h1 h4 (h6.imp fun h e => by
        have := hcmp k; rw [e, Std.ReflCmp.compare_self (cmp := E.cmp k)] at h; cases h) h5 kb
        (fun e _ => ⟨hwt k wk e.1, hwt v wv e.2⟩) hb
    | value j => exact absurd rfl (ho.2 j)
    | _ => rfl
  | hashMap k v =>
    obtain ⟨h1, -, -, -, h4, h5, h6, -⟩ := hv
    cases s with
    | key kb =>
      obtain ⟨wk, wv, oi⟩ := ho.1 kb rfl
      exact mapFind_right (hf k) (hf v) (hr v oi) val h1 h4 (h6.imp fun h e => by
        rw [e, heq] at h; cases h) h5 kb (fun e _ => ⟨hwt k wk e.1, hwt v wv e.2⟩) hb
    | value j => exact absurd rfl (ho.2 j)
    | _ => rfl
  | btreeSet t | hashSet t =>
    cases s with
    | elem k => exact absurd rfl (ho k)
    | _ => rfl
  | _ => exact ho.elim

theorem dynC_viewFinds [DecidableEq ι] {E : Env ι} {β : Type} {t : Ty ι} {c : Codec (t.denote E.X)}
    {m : Bytes → Res (Option β)}
    {inner : Dyn E → Option β} (h : c.ViewFinds m fun v => inner ⟨t, v⟩) : (dynC t c).ViewFinds m inner := by
  intro v b hv hb
  obtain ⟨t', v⟩ := v
  obtain ⟨a, ha, hv⟩ := hv
  unfold Dyn.proj at ha
  split at ha
  · rename_i ht
    simp only at ht
    subst ht
    simp only [Option.some.injEq] at ha
    subst ha
    simp only [dynC, Codec.embed, Dyn.proj, dif_pos] at hb
    exact h _ _ hv hb
  · cases ha

/-- Going to the view of a field of a struct. -/
theorem viewAt_finds {V β : Type} (cfg : Cfg) {h : List Entry} (hh : ValidHistory h) {fs : List (FieldDecl V)}
    (hw : ∀ f ∈ aliveFields fs h.length,
      f.wire (lastEntry h) = f.optimisedC ∧ f.optimisedC.Faithful)
    {idx : Nat} {f : FieldDecl V} (hfi : (aliveFields fs h.length)[idx]? = some f) {m : Bytes → Res (Option β)}
    {inner : V → Option β} (hix : f.isIndexed = true) (hg : f.indexed.ViewFinds m inner) :
    Rd.Finds (structC cfg h fs) (walkStruct cfg h fs >>= viewAt (aliveFields fs h.length) idx f m)
      (fun vs => vs[idx]?.bind inner) := by
  intro vs b hv hb t
  obtain ⟨bs, hval, henc, hcase⟩ := walkStruct_current cfg hh hv hb t
  obtain ⟨hfl, rfl⟩ := List.getElem?_eq_some_iff.1 hfi
  have halv : ∀ f ∈ aliveFields fs h.length, StructRepr.present f h.length = true := by
    intro f hfm
    have := (List.mem_filter.1 hfm).2
    rw [present_eq (Nat.le_refl _) this, this]
  generalize hal : aliveFields fs h.length = al at *
  have hvl : idx < vs.length := by have := hval.length_eq; omega
  have hbl : idx < bs.length := by have := henc.length_eq; omega
  have hm : al[idx] ∈ al := List.getElem_mem hfl
  obtain ⟨hwire, hff⟩ := hw _ hm
  have hv1 := hval.get idx hfl hvl
  have he1 := henc.get idx hfl hvl hbl
  simp only [hwire] at hv1 he1
  have hpl : al[idx].optimisedC = al[idx].indexed := by simp [FieldDecl.optimisedC, hix]
  rw [hpl] at hv1 he1 hff
  simp only [List.getElem?_eq_getElem hvl, Option.bind_some]
  have hfind := hg _ _ hv1 he1
  rcases hcase with ⟨ho, hi, hlt, hwk⟩ | ⟨hni, hwk⟩
  · rw [Rd.bind_of_ok hwk]
    have hac : aliveCount fs h.length = bs.length := by
      rw [show aliveCount fs h.length = (aliveFields fs h.length).length from rfl, hal, henc.length_eq.2]
    obtain ⟨o, hp⟩ := passFields_skip_indexed (offsetTable bs ++ bs.flatten) (aliveCount fs h.length) t al 0 idx
    refine ⟨t, ?_⟩
    simp only [viewAt]
    rw [Rd.bind_of_ok hp]
    simp only [StructRepr.viewField, hac]
    first
      | rw [fieldSlice_run bs hlt hbl, Rd.lift_ok, Rd.pure_bind, hfind]
      | rw [checkedFieldSlice_run bs hlt hbl, Rd.lift_ok, Rd.pure_bind, hfind]
    rfl
  · rw [Rd.bind_of_ok hwk]
    obtain ⟨o, hp⟩ := passFields_skip (c := fun f => f.wire (lastEntry h)) (rev := h.length) t hval henc (by
      intro f hfm
      exact ⟨halv f hfm, (hw f hfm).1.symm, by rw [(hw f hfm).1]; exact (hw f hfm).2⟩) 0 idx (by omega)
    have hpr := halv _ hm
    rw [List.drop_eq_getElem_cons hbl, List.flatten_cons, List.append_assoc] at hp
    refine ⟨(bs.drop (idx + 1)).flatten ++ t, ?_⟩
    simp only [viewAt]
    rw [Rd.bind_of_ok hp]
    simp only [StructRepr.viewField]
    rw [Rd.bind_of_ok (consumed_run (hff.skip_after _ _ hv1 he1 _)), hfind]
    rfl

end Revision
