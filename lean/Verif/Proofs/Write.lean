import Verif.Spec.Write
import Verif.Proofs.ValueBackProgram

/-! Helper lemmas: values can be written. -/

namespace Revision

theorem Written.ok {big : Bool} (a : α) : Written big (.ok a : Res α) := .inl ⟨a, rfl⟩

theorem Written.bind {big : Bool} {x : Res α} {f : α → Res β} (hx : Written big x) (hf : ∀ a, Written big (f a)) :
    Written big (x >>= f) := by
  rcases hx with ⟨a, rfl⟩ | ⟨hb, rfl⟩
  · exact hf a
  · exact .inr ⟨hb, rfl⟩

theorem encList_written {big : Bool} {f : α → Res Bytes} : ∀ {l : List α}, (∀ a ∈ l, Written big (f a)) →
    Written big (encList f l)
  | [], _ => .ok _
  | _ :: _, h => .bind (h _ (.head _)) fun _ => .bind (encList_written fun a ha => h a (.tail _ ha)) fun _ => .ok _

theorem encEach_written {big : Bool} {f : α → Res β} : ∀ {l : List α}, (∀ a ∈ l, Written big (f a)) →
    Written big (encEach f l)
  | [], _ => .ok _
  | _ :: _, h => .bind (h _ (.head _)) fun _ => .bind (encEach_written fun a ha => h a (.tail _ ha)) fun _ => .ok _

section
variable {ι : Type} {E : Env ι} {G : (i : ι) → E.X i → Prop} {big : Bool}

theorem vecOf_written {cfg : Cfg} (t : Ty ι) {c : Codec (t.denote E.X)} (l : List (t.denote E.X))
    (h : ∀ a ∈ l, Written big (c.enc a)) : Written big ((vecOf cfg E t c).enc l) := by
  have key : Written big ((vecC cfg (E.cap t) c).enc l) := .bind (encList_written h) fun _ => .ok _
  cases t <;> first
    | exact key
    | (simp only [vecOf]; split <;> first | exact key | exact .ok _)

theorem Ty.written (cfg : Cfg) (hx : ∀ i x, G i x → Written big ((E.extC i).enc x)) (t : Ty ι) :
    ∀ v, t.WF (E.only G) v → Written big ((t.codec cfg E).enc v) := by
  induction t with
  | unit | bool | int | float | char | string | bytes | uuid | duration | notNan => exact fun _ _ => .ok _
  | path =>
    rintro v ⟨s, rfl⟩
    show Written big (match fromUtf8 (strBytes s) with | .ok _ => _ | _ => _)
    rw [fromUtf8_strBytes]
    exact .ok _
  | systemTime =>
    intro v hv
    show Written big (if _ then _ else _)
    rw [if_neg (by have := hv.1; omega)]
    exact .ok _
  | option t ih =>
    intro v hv
    cases v with
    | none => exact .ok _
    | some a => exact .bind (ih a (hv a rfl)) fun _ => .ok _
  | result t e iht ihe =>
    intro v hv
    cases v with
    | ok a => exact .bind (iht a (hv.1 a rfl)) fun _ => .ok _
    | error a => exact .bind (ihe a (hv.2 a rfl)) fun _ => .ok _
  | bound t ih =>
    intro v hv
    cases v with
    | unbounded => exact .ok _
    | included a => exact .bind (ih a (hv a (.inl rfl))) fun _ => .ok _
    | excluded a => exact .bind (ih a (hv a (.inr rfl))) fun _ => .ok _
  | wrap t ih => exact ih
  | pair s t ihs iht => exact fun v hv => .bind (ihs _ hv.1) fun _ => .bind (iht _ hv.2) fun _ => .ok _
  | array n t ih => exact fun l hl => encList_written fun a ha => ih a (hl.2 a ha)
  | vec t ih => exact fun l hl => vecOf_written (E := E) t l fun a ha => ih a (hl a ha)
  | btreeMap k v ihk ihv | hashMap k v ihk ihv =>
    exact fun l hl => .bind (encList_written fun a ha => .bind (ihk _ (hl.1 a ha).1) fun _ =>
      .bind (ihv _ (hl.1 a ha).2) fun _ => .ok _) fun _ => .ok _
  | btreeSet t ih | hashSet t ih | binaryHeap t ih =>
    exact fun l hl => .bind (encList_written fun a ha => ih a (hl.1 a ha)) fun _ => .ok _
  | vector t ih => exact fun l hl => .bind (encList_written fun a ha => ih a (hl a ha)) fun _ => .ok _
  | ext i => exact fun v hv => hx i v hv

theorem fixedOf_written (cfg : Cfg) (hx : ∀ i x, G i x → Written big ((E.extC i).enc x)) (t : Ty ι)
    (v : t.denote E.X) (hv : t.WF (E.only G) v) : Written big ((fixedOf cfg E t).enc v) := by
  cases t <;> first
    | exact Ty.written cfg hx _ v hv
    | (rename_i k; cases k <;> exact .ok _)

theorem bulkOf_written (cfg : Cfg) (hx : ∀ i x, G i x → Written big ((E.extC i).enc x)) (t : Ty ι)
    (v : t.denote E.X) (hv : t.WF (E.only G) v) : Written big ((bulkOf cfg E t).enc v) := by
  cases t <;> first
    | exact Ty.written cfg hx _ v hv
    | (rename_i t; exact vecOf_written (E := E) t v fun a ha => Ty.written cfg hx t a (hv a ha))

theorem seqOffsets_written : ∀ (bs : List Bytes) (off : Nat), Written true (seqOffsets off bs)
  | [], _ => .ok _
  | b :: bs, off => by
    unfold seqOffsets
    split
    · exact .bind (seqOffsets_written bs _) fun _ => .ok _
    · exact .inr ⟨rfl, rfl⟩

theorem mapOffsets_written : ∀ (ps : List (Bytes × Bytes)) (k v : Nat), Written true (mapOffsets k v ps)
  | [], _, _ => .ok _
  | (kb, vb) :: ps, k, v => by
    unfold mapOffsets
    split
    · split
      · exact .bind (mapOffsets_written ps _ _) fun _ => .ok _
      · exact .inr ⟨rfl, rfl⟩
    · exact .inr ⟨rfl, rfl⟩

theorem writeSeqBodies_written (bs : List Bytes) : Written true (writeSeqBodies bs) := by
  unfold writeSeqBodies
  split
  · exact .ok _
  · exact .bind (seqOffsets_written _ _) fun _ => .ok _

theorem writeMapPairs_written (ps : List (Bytes × Bytes)) : Written true (writeMapPairs ps) := by
  unfold writeMapPairs
  split
  · exact .ok _
  · exact .bind (mapOffsets_written _ _ _) fun _ => .ok _

theorem indexedOf_written (cfg : Cfg) (hx : ∀ i x, G i x → Written true ((E.extC i).enc x)) (t : Ty ι)
    (v : t.denote E.X) (hv : t.WF (E.only G) v) : Written true ((indexedOf cfg E t).enc v) := by
  have hw := fun t => Ty.written cfg hx t
  cases t <;> first
    | exact hw _ v hv
    | exact .bind (encEach_written fun e he => .bind (hw _ _ (hv.1 e he).1) fun _ =>
        .bind (hw _ _ (hv.1 e he).2) fun _ => .ok _) fun _ => writeMapPairs_written _
    | exact .bind (encEach_written fun e he => hw _ _ (hv.1 e he)) fun _ => writeSeqBodies_written _
    | exact .bind (encEach_written fun e he => hw _ _ (hv e he)) fun _ => writeSeqBodies_written _

end

section
variable {φ V : Type} {Q : φ → V → Prop} {big : Bool} (d : φ → FieldDecl V) {w : FieldDecl V → Codec V}

theorem serializeFields_written {r : Nat} : ∀ (fs : List φ) (vs : List V),
    Pointwise Q (fs.filter fun f => (d f).existsAt r) vs → (∀ f ∈ fs, ∀ v, Q f v → Written big ((w (d f)).enc v)) →
    Written big (serializeFields (fun f v => (w f).enc v) r (fs.map d) vs)
  | [], _, _, _ => .ok _
  | f :: fs, vs, hp, hw => by
    rw [List.map_cons, serializeFields.eq_def]
    simp only
    by_cases h : (d f).existsAt r = true
    · rw [if_pos h]
      rw [List.filter_cons_of_pos (p := fun f => (d f).existsAt r) h] at hp
      cases hp with
      | cons hq hp =>
        exact .bind (hw f (.head _) _ hq) fun _ =>
          .bind (serializeFields_written fs _ hp fun g hg => hw g (.tail _ hg)) fun _ => .ok _
    · rw [if_neg h]
      rw [List.filter_cons_of_neg (p := fun f => (d f).existsAt r) h] at hp
      exact serializeFields_written fs vs hp fun g hg => hw g (.tail _ hg)

theorem serializeIndexedFields_written {r : Nat} : ∀ (fs : List φ) (vs : List V) (pos : Nat),
    Pointwise Q (fs.filter fun f => (d f).existsAt r) vs → (∀ f ∈ fs, ∀ v, Q f v → Written big ((w (d f)).enc v)) →
    Written big (serializeIndexedFields (fun f v => (w f).enc v) r (fs.map d) vs pos)
  | [], _, _, _, _ => .ok _
  | f :: fs, vs, pos, hp, hw => by
    rw [List.map_cons, serializeIndexedFields.eq_def]
    simp only
    by_cases h : (d f).existsAt r = true
    · rw [if_pos h]
      rw [List.filter_cons_of_pos (p := fun f => (d f).existsAt r) h] at hp
      cases hp with
      | cons hq hp =>
        exact .bind (hw f (.head _) _ hq) fun _ =>
          .bind (serializeIndexedFields_written fs _ _ hp fun g hg => hw g (.tail _ hg)) fun _ => .ok _
    · rw [if_neg h]
      rw [List.filter_cons_of_neg (p := fun f => (d f).existsAt r) h] at hp
      exact serializeIndexedFields_written fs vs pos hp fun g hg => hw g (.tail _ hg)

theorem lengthPrefixed_written (s : Bytes) : Written true (lengthPrefixed s) := by
  unfold lengthPrefixed
  split
  · exact .ok _
  · exact .inr ⟨rfl, rfl⟩

theorem serializeStructBody_written (e : Entry) (hbig : e.optimised = true → big = true) (fs : List φ) (vs : List V)
    (hp : Pointwise Q (fs.filter fun f => (d f).existsAt e.revision) vs)
    (hw : ∀ f ∈ fs, ∀ v, Q f v → Written big (((d f).wire e).enc v)) :
    Written big (serializeStructBody e (fs.map d) vs) := by
  unfold serializeStructBody
  simp only
  by_cases ho : e.optimised = true
  · obtain rfl := hbig ho
    rw [if_pos ho]
    split
    · exact .bind (serializeIndexedFields_written d (w := fun f => f.wire e) fs vs _ hp hw) fun _ =>
        lengthPrefixed_written _
    · exact .bind (serializeFields_written d (w := fun f => f.wire e) fs vs hp hw) fun _ => lengthPrefixed_written _
  · rw [if_neg ho]
    exact serializeFields_written d (w := fun f => f.wire e) fs vs hp hw

end

section
variable {ι : Type} [DecidableEq ι] {K : ι → Kind} (cfg : Cfg) (I : Impls K) (n : Nat)
  {c : (i : ι) → Codec (Values K n i)} {G : (i : ι) → Values K n i → Prop} {big : Bool}

theorem dynC_written {E : Env ι} (t : Ty ι) {c : Codec (t.denote E.X)} (a : t.denote E.X)
    (h : Written big (c.enc a)) : Written big ((dynC t c).enc ⟨t, a⟩) := by
  rw [dynC_enc]
  exact h

theorem Field.plain_written (hx : ∀ i x, G i x → Written big ((c i).enc x)) (f : Field K) (v : DynAt K n)
    (hv : f.IsValue I n G v) : Written big ((f.decl cfg I n c).plain.enc v) := by
  obtain ⟨a, rfl, ha, _⟩ := hv
  exact dynC_written (E := I.env n c) f.ty a (f.ty.written (E := I.env n c) cfg hx a ha)

theorem Field.legacy_written (hx : ∀ i x, G i x → Written big ((c i).enc x)) (f : Field K) (v : DynAt K n)
    (hv : f.IsValue I n G v) : Written big ((f.decl cfg I n c).legacyC.enc v) := by
  unfold FieldDecl.legacyC
  split
  · obtain ⟨a, rfl, ha, _⟩ := hv
    exact dynC_written (E := I.env n c) f.ty a (fixedOf_written (E := I.env n c) cfg hx f.ty a ha)
  · split
    · obtain ⟨a, rfl, ha, _⟩ := hv
      exact dynC_written (E := I.env n c) f.ty a (bulkOf_written (E := I.env n c) cfg hx f.ty a ha)
    · exact f.plain_written cfg I n hx v hv

theorem Field.wire_written (e : Entry) (hbig : e.optimised = true → big = true)
    (hx : ∀ i x, G i x → Written big ((c i).enc x)) (f : Field K) (v : DynAt K n)
    (hv : f.IsValue I n G v) : Written big (((f.decl cfg I n c).wire e).enc v) := by
  unfold FieldDecl.wire FieldDecl.optimisedC
  split
  · rename_i ho
    obtain rfl := hbig ho
    split
    · obtain ⟨a, rfl, ha, _⟩ := hv
      exact dynC_written (E := I.env n c) f.ty a (indexedOf_written (E := I.env n c) cfg hx f.ty a ha)
    · exact f.plain_written cfg I n hx v hv
  · exact f.legacy_written cfg I n hx v hv

theorem Body.written (hx : ∀ i x, G i x → Written big ((c i).enc x)) (h : List Entry) (hh : ValidHistory h)
    (hbig : (lastEntry h).optimised = true → big = true) : {k : Kind} → (body : Body K k) →
    body.Complete big (lastEntry h) → ∀ v, body.IsValue I n G h.length v → Written big ((body.codec cfg I n c h).enc v)
  | _, .struct fs, _, v, hv => by
    have hrev := hh.lastEntry_revision
    exact .bind (serializeStructBody_written (fun f : Field K => f.decl cfg I n c) (Q := Field.IsValue I n G)
      (lastEntry h) hbig fs v (by rw [hrev]; exact hv)
      fun f hf w hw => f.wire_written cfg I n _ hbig hx w hw) fun _ => .ok _
  | _, .enum vs, hA, x, hv => by
    have hrev := hh.lastEntry_revision
    have es := decl_sigs cfg I n (c := c) vs
    have hAE : AcceptedEnum (lastEntry h) (vs.map (·.decl cfg I n c)) :=
      ⟨es ▸ hA.distinct, es ▸ hA.discs, es ▸ hA.optimised⟩
    obtain ⟨v, hvm, hva, hvi, hvf⟩ := hv
    refine .bind ?_ fun _ => .ok _
    unfold serializeEnumBody
    split
    · rename_i hfind
      obtain ⟨d, hd⟩ := hAE.arm_total (v := v.decl cfg I n c) (List.mem_map_of_mem hvm) (by rw [hrev]; exact hva)
      have := List.find?_eq_none.1 hfind _ hd
      exact absurd (beq_iff_eq.2 hvi) this
    · rename_i id w hfind
      have hmem := List.mem_of_find?_eq_some hfind
      have hid : w.ident = x.variant := by simpa using List.find?_some hfind
      obtain ⟨hwm, hwa, _⟩ := mem_variantArms.1 hmem
      have hsame := hAE.same (v := v.decl cfg I n c) (List.mem_map_of_mem hvm) (by rw [hrev]; exact hva) hwm hwa
        (hvi.trans hid.symm)
      subst hsame
      have hp : Pointwise (Field.IsValue I n G)
          (v.fields.filter fun f => (f.decl cfg I n c).existsAt (lastEntry h).revision) x.fields := by
        rw [hrev]; exact hvf
      refine .bind (serializeFields_written (fun f : Field K => f.decl cfg I n c)
        (w := fun f => f.variantWire (lastEntry h)) v.fields x.fields hp fun f _ a ha => ?_) fun body => ?_
      · unfold FieldDecl.variantWire
        split
        · exact f.plain_written cfg I n hx a ha
        · exact f.legacy_written cfg I n hx a ha
      · split
        · rename_i ho
          obtain rfl := hbig ho
          unfold serializeSized
          simp only
          split
          · exact .ok _
          · exact .ok _
          · exact .bind (lengthPrefixed_written _) fun _ => .ok _
        · exact .ok _
  | _, .foreign x, hc, v, hv => hc v hv

theorem Program.written (P : Program ι) (I : Impls P.kind) (hP : P.Complete big)
    (hbig : ∀ i, (lastEntry (P.history i)).optimised = true → big = true) :
    ∀ n i v, P.IsValue I n i v → Written big ((P.codec cfg I n i).enc v)
  | 0, _, v, _ => nomatch v
  | n + 1, i, v, hv => Body.written cfg I n (Program.written P I hP hbig n) (P.history i) (hP.history i) (hbig i)
      (P.body i) (hP.body i) v hv

theorem Body.writable_of_legacy (h : List Entry) (hl : (lastEntry h).optimised = false) :
    {k : Kind} → (body : Body K k) → body.Writable cfg I n c G h
  | _, .struct _ => fun h => by rw [hl] at h; cases h
  | _, .enum _ => fun h => by rw [hl] at h; cases h
  | _, .foreign _ => trivial

theorem Program.writable_of_legacy (P : Program ι) (I : Impls P.kind) (hL : P.WritesLegacy) : P.Writable cfg I :=
  fun n i => Body.writable_of_legacy cfg I n (P.history i) (hL i) (P.body i)

end

end Revision
