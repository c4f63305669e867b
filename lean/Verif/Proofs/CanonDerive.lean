import Verif.Proofs.Canon
import Verif.Proofs.DeriveEnum
import Verif.Proofs.DeriveWalk
import Verif.Proofs.ValueProgram
import Verif.Proofs.ValueBackProgram

/-! Helper lemmas: writing derived values that were read. -/

namespace Revision

variable {R : Bytes → Bytes → Bytes → Prop} {V : Type}

theorem within_some {m : Rd α} {s : Bytes} {a : α} (h : m.within s = .ok a) : ∃ r, m s = .ok (a, r) := by
  unfold Rd.within at h
  split at h
  · rename_i a' r h'
    injection h with h
    subst h
    exact ⟨r, h'⟩
  all_goals cases h

theorem decodePairs_again (hR : Joins R) {w : FieldDecl V → Codec V} {removed : FieldDecl V → Rd V} {r : Nat} :
    ∀ (fs : List (FieldDecl V)), (∀ f ∈ fs, f.existsAt r = true → Again R (w f).dec (w f).enc) → ∀ {s t ps},
    decodePairs (fun f => (w f).dec) removed r r fs s = .ok (ps, t) →
    ∃ b, serializeFields (fun f v => (w f).enc v) r fs (ps.map (·.2)) = .ok b ∧ R b s t
  | [], _, s, t, ps, h => by
    have h : Res.ok ([], s) = .ok (ps, t) := h
    injection h with h
    injection h with h1 h2
    subst h1; subst h2
    exact ⟨[], rfl, hR.nil _⟩
  | f :: fs, hw, s, t, ps, h => by
    unfold decodePairs at h
    unfold serializeFields
    by_cases he : f.existsAt r = true
    · simp only [he, Bool.or_self, if_true] at h ⊢
      obtain ⟨v, s1, h1, h2⟩ := Rd.bind_ok.1 h
      obtain ⟨ps', h3, rfl⟩ := bind_pure_ok.1 h2
      obtain ⟨b, e1, hb⟩ := hw f (.head _) he _ _ _ h1
      obtain ⟨b', e2, hb'⟩ := decodePairs_again hR fs (fun g hg => hw g (.tail _ hg)) h3
      refine ⟨b ++ b', ?_, hR.app hb hb'⟩
      show ((w f).enc v >>= fun b => serializeFields _ r fs (ps'.map (·.2)) >>= fun bs => pure (b ++ bs)) = _
      rw [e1, Res.ok_bind, e2]
      rfl
    · simp only [he, Bool.or_self, if_false, Bool.false_eq_true] at h ⊢
      exact decodePairs_again hR fs (fun g hg => hw g (.tail _ hg)) h

theorem fields_again (hR : Joins R) {w : FieldDecl V → Codec V} {removed : FieldDecl V → Rd V} {r : Nat}
    {fs : List (FieldDecl V)} (hn : DistinctNames fs r r)
    (hw : ∀ f ∈ fs, f.existsAt r = true → Again R (w f).dec (w f).enc) :
    Again R (decodeStructBody (fun f => (w f).dec) removed r r fs)
      (serializeFields (fun f v => (w f).enc v) r fs) := by
  intro s vs t h
  rw [decodeStructBody_kept _ _ _ _ _ hn (fun _ _ h => h)] at h
  obtain ⟨ps, h1, rfl⟩ := bind_pure_ok.1 h
  exact decodePairs_again hR fs hw h1

theorem readLengthPrefixed_split {s p r : Bytes} (h : readLengthPrefixed s = .ok (p, r)) :
    s = leBytes 4 p.length ++ p ++ r ∧ p.length < 2 ^ 32 := by
  obtain ⟨n, t, h1, h2⟩ := Rd.bind_ok.1 h
  obtain ⟨b, h3, rfl⟩ := bind_pure_ok.1 h1
  obtain ⟨rfl, hl⟩ := readExact_split h3
  obtain ⟨rfl, hl2⟩ := readExact_split h2
  have := leVal_lt b
  rw [hl] at this
  rw [hl2]
  refine ⟨?_, this⟩
  conv => rhs; rw [← hl, leBytes_leVal]
  rw [List.append_assoc]

theorem lengthPrefixed_less {s p r b : Bytes} (h : readLengthPrefixed s = .ok (p, r)) (hb : b.length ≤ p.length) :
    ∃ x, lengthPrefixed b = .ok x ∧ NotLonger x s r := by
  obtain ⟨rfl, hp⟩ := readLengthPrefixed_split h
  refine ⟨leBytes 4 b.length ++ b, if_pos (by omega), leBytes 4 p.length ++ p, rfl, ?_⟩
  simp only [NeverLonger, List.length_append, leBytes_length]
  omega

theorem NotLonger.length {b s r : Bytes} (h : NotLonger b s r) : b.length ≤ s.length := by
  obtain ⟨u, rfl, h⟩ := h
  simp only [NeverLonger] at h
  rw [List.length_append]; omega

theorem serializeIndexedFields_of {enc : FieldDecl V → V → Res Bytes} {r : Nat} : ∀ (fs : List (FieldDecl V)) (vs pos b),
    serializeFields enc r fs vs = .ok b →
    ∃ tbl, serializeIndexedFields enc r fs vs pos = .ok (tbl, b) ∧ tbl.length = 4 * aliveCount fs r
  | [], vs, pos, b, h => by
    have h : Res.ok [] = .ok b := h
    injection h with h
    subst h
    exact ⟨[], rfl, rfl⟩
  | f :: fs, vs, pos, b, h => by
    unfold serializeFields at h
    unfold serializeIndexedFields
    by_cases he : f.existsAt r = true
    · rw [if_pos he] at h ⊢
      cases vs with
      | nil => cases h
      | cons v vs =>
        obtain ⟨x, h1, h2⟩ := Res.bind_eq_ok.1 h
        obtain ⟨y, h3, h4⟩ := Res.bind_eq_ok.1 h2
        injection h4 with h4
        subst h4
        obtain ⟨tbl, i1, i2⟩ := serializeIndexedFields_of fs vs (pos + x.length) y h3
        refine ⟨leBytes 4 pos ++ tbl, ?_, ?_⟩
        · simp only [h1, Res.ok_bind, i1]
          rfl
        · rw [List.length_append, leBytes_length, i2]
          unfold aliveCount
          rw [List.filter_cons, if_pos he, List.length_cons]
          omega
    · rw [if_neg he] at h ⊢
      obtain ⟨tbl, i1, i2⟩ := serializeIndexedFields_of fs vs pos b h
      refine ⟨tbl, i1, ?_⟩
      rw [i2]
      unfold aliveCount
      rw [List.filter_cons, if_neg he]

theorem structBody_again (hR : Joins R) {e : Entry} {fs : List (FieldDecl V)}
    (hn : DistinctNames fs e.revision e.revision)
    (hw : ∀ f ∈ fs, f.existsAt e.revision = true → Again R (f.wire e).dec (f.wire e).enc)
    (ho : e.optimised = true → R = NotLonger) :
    Again R (deserializeStructBody e e.revision fs) (serializeStructBody e fs) := by
  have key := fields_again hR (removed := fun f => f.removedDec e) hn hw
  intro s vs r hd
  unfold deserializeStructBody at hd
  unfold serializeStructBody
  by_cases hopt : e.optimised = true
  · have := ho hopt
    subst this
    simp only [hopt, if_true] at hd ⊢
    obtain ⟨p, t, h1, h2⟩ := Rd.bind_ok.1 hd
    by_cases hi : e.indexedStruct = true
    · simp only [hi, if_true] at h2 ⊢
      split at h2
      · cases h2
      · obtain ⟨h2', rfl⟩ := lift_run_ok.1 h2
        obtain ⟨q, h3⟩ := within_some h2'
        obtain ⟨b, h4, h5⟩ := key _ _ _ h3
        obtain ⟨tbl, h6, h7⟩ := serializeIndexedFields_of fs vs (4 * aliveCount fs e.revision) b h4
        have hl := h5.length
        rw [List.length_drop] at hl
        rw [h6, Res.ok_bind]
        exact lengthPrefixed_less h1 (by
          show (tbl ++ b).length ≤ _
          rw [List.length_append, h7]; omega)
    · simp only [hi, if_false, Bool.false_eq_true] at h2 ⊢
      obtain ⟨h2', rfl⟩ := lift_run_ok.1 h2
      obtain ⟨q, h3⟩ := within_some h2'
      obtain ⟨b, h4, h5⟩ := key _ _ _ h3
      rw [h4, Res.ok_bind]
      exact lengthPrefixed_less h1 h5.length
  · simp only [hopt, if_false, Bool.false_eq_true] at hd ⊢
    exact key _ _ _ hd

theorem header_again (hR : Joins R) {cfg : Cfg} (h : Nums cfg R) {e : Entry} (arm : Entry → Rd α) {enc : α → Res Bytes}
    (ha : Again R (arm e) enc) :
    Again R (dispatchRevision cfg [e] arm)
      (fun v => enc v >>= fun b => pure (encU16 cfg e.revision ++ b)) := by
  intro s v r hd
  obtain ⟨n, t, h1, h2⟩ := Rd.bind_ok.1 hd
  have hn := h.u16 h1
  rw [List.find?_singleton] at h2
  split at h2
  · rename_i e' he
    split at he
    · rename_i heq
      injection he with he
      subst he
      have heq : e.revision = n := by simpa using heq
      obtain ⟨b, h3, h4⟩ := ha _ _ _ h2
      refine ⟨encU16 cfg e.revision ++ b, ?_, hR.app (heq ▸ hn) h4⟩
      show (enc v >>= fun b => pure (encU16 cfg e.revision ++ b)) = _
      rw [h3]
      rfl
    · cases he
  · cases h2

theorem structC_again (hR : Joins R) {cfg : Cfg} (h : Nums cfg R) {e : Entry} {fs : List (FieldDecl V)}
    (hn : DistinctNames fs e.revision e.revision)
    (hw : ∀ f ∈ fs, f.existsAt e.revision = true → Again R (f.wire e).dec (f.wire e).enc)
    (ho : e.optimised = true → R = NotLonger) : Again R (structC cfg [e] fs).dec (structC cfg [e] fs).enc :=
  header_again hR h (fun e' => deserializeStructBody e' (latest [e]) fs) (structBody_again hR hn hw ho)

theorem decodeAlive_again (hR : Joins R) {r : Nat} : ∀ (fs : List (FieldDecl V)),
    (∀ f ∈ fs, f.existsAt r = true → Again R f.plain.dec f.plain.enc) → ∀ {s t vs},
    decodeAlive r fs s = .ok (vs, t) → ∃ b, serializeFields (fun f v => f.plain.enc v) r fs vs = .ok b ∧ R b s t
  | [], _, s, t, vs, h => by
    have h : Res.ok ([], s) = .ok (vs, t) := h
    injection h with h
    injection h with h1 h2
    subst h1; subst h2
    exact ⟨[], rfl, hR.nil _⟩
  | f :: fs, hw, s, t, vs, h => by
    unfold decodeAlive at h
    unfold serializeFields
    by_cases he : f.existsAt r = true
    · rw [if_pos he] at h ⊢
      obtain ⟨v, s1, h1, h2⟩ := Rd.bind_ok.1 h
      obtain ⟨vs', h3, rfl⟩ := bind_pure_ok.1 h2
      obtain ⟨b, e1, hb⟩ := hw f (.head _) he _ _ _ h1
      obtain ⟨b', e2, hb'⟩ := decodeAlive_again hR fs (fun g hg => hw g (.tail _ hg)) h3
      refine ⟨b ++ b', ?_, hR.app hb hb'⟩
      show (f.plain.enc v >>= fun b => serializeFields _ r fs vs' >>= fun bs => pure (b ++ bs)) = _
      rw [e1, Res.ok_bind, e2]
      rfl
    · rw [if_neg he] at h ⊢
      exact decodeAlive_again hR fs (fun g hg => hw g (.tail _ hg)) h

theorem enumBody_again (hR : Joins R) {cfg : Cfg} (h : Nums cfg R) {e : Entry} {vs : List (VariantDecl V)}
    (hA : AcceptedEnum e vs)
    (hn : e.optimised = false → ∀ v ∈ vs, v.existsAt e.revision = true → DistinctNames v.fields e.revision e.revision)
    (hw : ∀ v ∈ vs, v.existsAt e.revision = true → ∀ f ∈ v.fields, f.existsAt e.revision = true →
      Again R (f.variantWire e).dec (f.variantWire e).enc)
    (ho : e.optimised = true → R = NotLonger) :
    Again R (deserializeEnumBody cfg e e.revision vs) (serializeEnumBody cfg e vs) := by
  intro s x r hd
  unfold deserializeEnumBody at hd
  unfold serializeEnumBody
  by_cases hopt : e.optimised = true
  · have := ho hopt
    subst this
    simp only [hopt, if_true] at hd ⊢
    obtain ⟨⟨tag, sc⟩, t, h1, h2⟩ := Rd.bind_ok.1 hd
    have ht : s = tag :: t := by
      obtain ⟨b, t', g1, g2⟩ := Rd.bind_ok.1 h1
      obtain ⟨sc', t2, g3, g4⟩ := Rd.bind_ok.1 g2
      obtain ⟨-, rfl⟩ := lift_run_ok.1 g3
      have g4 : Res.ok ((b, sc'), t') = .ok ((tag, sc), t) := g4
      injection g4 with g4
      injection g4 with g4 g5
      injection g4 with g4 g6
      subst g4; subst g5
      exact readByte_split g1
    subst ht
    simp only at h2
    split at h2
    · rename_i a ha
      have hm := List.mem_of_find?_eq_some ha
      obtain ⟨d, v⟩ := a
      obtain ⟨hv, hva, -⟩ := mem_variantArms.1 hm
      obtain ⟨p, t2, h3, h4⟩ := Rd.bind_ok.1 h2
      obtain ⟨fields, t3, h5, h6⟩ := Rd.bind_ok.1 h4
      obtain ⟨h5', rfl⟩ := lift_run_ok.1 h5
      rw [if_pos hva] at h6
      have h6 : Res.ok (EnumVal.mk v.ident fields, t2) = .ok (x, r) := h6
      injection h6 with h6
      injection h6 with h6 h7
      subst h6; subst h7
      obtain ⟨q, h8⟩ := within_some h5'
      have hw' : ∀ f ∈ v.fields, f.existsAt e.revision = true → Again NotLonger f.plain.dec f.plain.enc := by
        intro f hf hfa
        have := hw v hv hva f hf hfa
        simpa only [FieldDecl.variantWire, hopt, if_true] using this
      obtain ⟨b, h9, h10⟩ := decodeAlive_again NotLonger.parts v.fields hw' h8
      have hl := h10.length
      rw [hA.find_ident hm]
      simp only [FieldDecl.variantWire, hopt, if_true]
      rw [h9, Res.ok_bind]
      unfold serializeSized
      unfold readSized at h3
      simp only at h3 ⊢
      cases hsz : v.opts.size.getD .inline with
      | inline =>
        rw [hsz] at h3
        have h3 : Res.ok ([], t) = .ok (p, t2) := h3
        injection h3 with h3
        injection h3 with h3 h4
        subst h4
        exact ⟨_, rfl, [tag], rfl, Nat.le_refl _⟩
      | fixed n =>
        rw [hsz] at h3
        obtain ⟨rfl, -⟩ := readExact_split h3
        exact ⟨_, rfl, tag :: p, rfl, by simp only [NeverLonger, List.length_cons]; omega⟩
      | varlen =>
        rw [hsz] at h3
        obtain ⟨y, h11, u, rfl, h12⟩ := lengthPrefixed_less h3 hl
        simp only [h11, Res.ok_bind]
        exact ⟨_, rfl, tag :: u, rfl, by simp only [NeverLonger, List.length_cons] at *; omega⟩
    · cases h2
  · have hopt' : e.optimised = false := by simpa using hopt
    simp only [hopt, if_false, Bool.false_eq_true] at hd ⊢
    obtain ⟨d, t, h1, h2⟩ := Rd.bind_ok.1 hd
    have hd' := h.u32 h1
    split at h2
    · rename_i a ha
      have hm := List.mem_of_find?_eq_some ha
      have hp := List.find?_some ha
      obtain ⟨d', v⟩ := a
      have hp : d' = d := by simpa using hp
      subst hp
      obtain ⟨hv, hva, -⟩ := mem_variantArms.1 hm
      obtain ⟨fields, t2, h3, h4⟩ := Rd.bind_ok.1 h2
      rw [if_pos hva] at h4
      have h4 : Res.ok (EnumVal.mk v.ident fields, t2) = .ok (x, r) := h4
      injection h4 with h4
      injection h4 with h4 h5
      subst h4; subst h5
      have hw' : ∀ f ∈ v.fields, f.existsAt e.revision = true → Again R f.legacyC.dec f.legacyC.enc := by
        intro f hf hfa
        have := hw v hv hva f hf hfa
        simpa only [FieldDecl.variantWire, hopt', if_false, Bool.false_eq_true] using this
      obtain ⟨b, h6, h7⟩ := fields_again hR (hn hopt' v hv hva) hw' _ _ _ h3
      rw [hA.find_ident hm]
      simp only [FieldDecl.variantWire, hopt', if_false, Bool.false_eq_true]
      rw [h6, Res.ok_bind]
      exact ⟨_, rfl, hR.app hd' h7⟩
    · cases h2

theorem enumC_again (hR : Joins R) {cfg : Cfg} (h : Nums cfg R) {e : Entry} {vs : List (VariantDecl V)}
    (hA : AcceptedEnum e vs)
    (hn : e.optimised = false → ∀ v ∈ vs, v.existsAt e.revision = true → DistinctNames v.fields e.revision e.revision)
    (hw : ∀ v ∈ vs, v.existsAt e.revision = true → ∀ f ∈ v.fields, f.existsAt e.revision = true →
      Again R (f.variantWire e).dec (f.variantWire e).enc)
    (ho : e.optimised = true → R = NotLonger) : Again R (enumC cfg [e] vs).dec (enumC cfg [e] vs).enc :=
  header_again hR h (fun e' => deserializeEnumBody cfg e' (latest [e]) vs) (enumBody_again hR h hA hn hw ho)

/-! ### Programs -/

section
variable {ι : Type} [DecidableEq ι]

theorem dynC_again {E : Env ι} (t : Ty ι) {c : Codec (t.denote E.X)} (h : Again R c.dec c.enc) :
    Again R (dynC t c).dec (dynC t c).enc := by
  intro s v r hd
  obtain ⟨a, h1, rfl⟩ := bind_pure_ok.1 hd
  obtain ⟨b, h2, h3⟩ := h _ _ _ h1
  refine ⟨b, ?_, h3⟩
  have hpr := (Dyn.proj_eq_some (E := E) t ⟨t, a⟩ a).2 rfl
  simp only [dynC, Codec.embed]
  rw [hpr]
  exact h2

omit [DecidableEq ι] in
theorem fixedOf_again (hR : Joins R) {cfg : Cfg} {E : Env ι} (t : Ty ι)
    (h : Again R (t.codec cfg E).dec (t.codec cfg E).enc) : Again R (fixedOf cfg E t).dec (fixedOf cfg E t).enc := by
  cases t with
  | int k =>
    cases k
    case u32 => exact readLE_again hR (by decide)
    case i32 => exact readLE_again hR (by decide)
    case u64 => exact readLE_again hR (by decide)
    case i64 => exact readLE_again hR (by decide)
    case u128 => exact readLE_again hR (by decide)
    case i128 => exact readLE_again hR (by decide)
    all_goals exact h
  | _ => exact h

theorem Nums.specialised {cfg : Cfg} (h : Nums cfg R) (b : Bool) : Nums ⟨cfg.fixedWidth, b⟩ R := by
  cases cfg
  exact h

omit [DecidableEq ι] in
theorem bulkOf_again (hR : Joins R) {cfg : Cfg} {E : Env ι} {p : Ty ι → Prop} (hp : Requires cfg E R p)
    (hx : ∀ i, p (.ext i) → Again R (E.extC i).dec (E.extC i).enc) (t : Ty ι) (ht : t.Built p)
    (hb : t.isBits = true → R = NotLonger) : Again R (bulkOf cfg E t).dec (bulkOf cfg E t).enc := by
  cases t with
  | vec t =>
    refine vecOf_again hR ((hp.nums _ ht.1 rfl).specialised true) t (Ty.again hp hx t ht.2) fun h _ => ?_
    subst h
    exact hb rfl
  | _ => exact Ty.again hp hx _ ht

variable {K : ι → Kind} {cfg : Cfg} {I : Impls K} {n : Nat} {c : (i : ι) → Codec (Values K n i)} {p : Ty ι → Prop}

/-- A field as `Ty.again` and the attributes want it. -/
def Field.Asked (R : Bytes → Bytes → Bytes → Prop) (p : Ty ι → Prop) (e : Entry) (f : Field K) : Prop :=
  f.ty.Built p ∧ (f.ty.isBits = true → f.opts.specialised = true → R = NotLonger) ∧
    (e.optimised = true → f.isIndexed = false)

theorem Field.plain_again (hp : Requires cfg (I.env n c) R p) (hx : ∀ i, Again R (c i).dec (c i).enc) {f : Field K}
    (hf : f.ty.Built p) : Again R (f.decl cfg I n c).plain.dec (f.decl cfg I n c).plain.enc :=
  dynC_again (E := I.env n c) f.ty (Ty.again hp (fun i _ => hx i) f.ty hf)

theorem Field.legacy_again (hp : Requires cfg (I.env n c) R p) (hx : ∀ i, Again R (c i).dec (c i).enc) {e : Entry}
    {f : Field K} (hf : f.Asked R p e) : Again R (f.decl cfg I n c).legacyC.dec (f.decl cfg I n c).legacyC.enc := by
  have ho : (f.decl cfg I n c).opts = f.opts := rfl
  unfold FieldDecl.legacyC
  rw [ho]
  split
  · exact dynC_again (E := I.env n c) f.ty (fixedOf_again hp.parts _ (Ty.again hp (fun i _ => hx i) f.ty hf.1))
  · split
    · rename_i hs
      exact dynC_again (E := I.env n c) f.ty
        (bulkOf_again hp.parts hp (fun i _ => hx i) f.ty hf.1 fun hb => hf.2.1 hb hs)
    · exact f.plain_again hp hx hf.1

theorem Field.wire_again (hp : Requires cfg (I.env n c) R p) (hx : ∀ i, Again R (c i).dec (c i).enc) {e : Entry}
    {f : Field K} (hf : f.Asked R p e) : Again R ((f.decl cfg I n c).wire e).dec ((f.decl cfg I n c).wire e).enc := by
  unfold FieldDecl.wire FieldDecl.optimisedC
  split
  · rename_i ho
    have hi : (f.decl cfg I n c).isIndexed = false := hf.2.2 ho
    rw [hi]
    exact f.plain_again hp hx hf.1
  · exact f.legacy_again hp hx hf

theorem Field.variantWire_again (hp : Requires cfg (I.env n c) R p) (hx : ∀ i, Again R (c i).dec (c i).enc) {e : Entry}
    {f : Field K} (hf : f.Asked R p e) :
    Again R ((f.decl cfg I n c).variantWire e).dec ((f.decl cfg I n c).variantWire e).enc := by
  unfold FieldDecl.variantWire
  split
  · exact f.plain_again hp hx hf.1
  · exact f.legacy_again hp hx hf

theorem Body.again {Q : Bytes → Bytes → Prop} (hp : Requires cfg (I.env n c) (Over Q) p) (hn : Nums cfg (Over Q))
    (hx : ∀ i, Again (Over Q) (c i).dec (c i).enc) {q : Entry → Prop} {q' : Entry → Field K → Prop}
    (hq : ∀ e f, q' e f → q e → f.Asked (Over Q) p e) (ho : ∀ e, q e → e.optimised = true → Over Q = NotLonger)
    (h : List Entry) : {k : Kind} → (body : Body K k) → body.Single Q q q' h →
    Again (Over Q) (body.codec cfg I n c h).dec (body.codec cfg I n c h).enc
  | _, .struct fs, ⟨e, he, hqe, hd, hf⟩ => by
    subst he
    refine structC_again hp.parts hn (distinctNames_decl cfg I n c hd) ?_ (ho e hqe)
    intro g hg _
    obtain ⟨f, hfm, rfl⟩ := List.mem_map.1 hg
    exact f.wire_again hp hx (hq e f (hf f hfm) hqe)
  | _, .enum vs, ⟨e, he, hqe, hA, hv⟩ => by
    subst he
    have es := decl_sigs cfg I n (c := c) vs
    refine enumC_again hp.parts hn ⟨es ▸ hA.distinct, es ▸ hA.discs, es ▸ hA.optimised⟩ ?_ ?_ (ho e hqe)
    · intro _ w hw _
      obtain ⟨v, hvm, rfl⟩ := List.mem_map.1 hw
      exact distinctNames_decl cfg I n c (hv v hvm).1
    · intro w hw _ g hg _
      obtain ⟨v, hvm, rfl⟩ := List.mem_map.1 hw
      obtain ⟨f, hfm, rfl⟩ := List.mem_map.1 hg
      exact f.variantWire_again hp hx (hq e f ((hv v hvm).2 f hfm) hqe)
  | _, .foreign x, hx => again_iff.2 hx

end

theorem Program.again {ι : Type} [DecidableEq ι] {cfg : Cfg} (P : Program ι) (I : Impls P.kind) {p : Ty ι → Prop}
    {Q : Bytes → Bytes → Prop} (hp : ∀ n c, Requires cfg (I.env n c) (Over Q) p) (hn : Nums cfg (Over Q))
    {q : Entry → Prop} {q' : Entry → Field P.kind → Prop} (hq : ∀ e f, q' e f → q e → f.Asked (Over Q) p e)
    (ho : ∀ e, q e → e.optimised = true → Over Q = NotLonger)
    (hP : ∀ i, (P.body i).Single Q q q' (P.history i)) : ∀ n i, (P.codec cfg I n i).Rewrites Q
  | 0, _ => fun _ v _ _ => nomatch v
  | n + 1, i => again_iff.1 (Body.again (hp n _) hn (fun j => again_iff.2 (P.again I hp hn hq ho hP n j)) hq ho _ _ (hP i))

/-! ### What types are asked for -/

section
variable {ι : Type}

theorem nums_sameOrLess (cfg : Cfg) : Nums cfg SameOrLess := fun k _ _ _ h => decInt_sameOrLess k h

theorem nums_notLonger (cfg : Cfg) : Nums cfg NotLonger :=
  fun k _ _ _ h => (decInt_sameOrLess k h).mono fun _ _ h => h.neverLonger

theorem requires_notLonger (cfg : Cfg) (E : Env ι) (he : E.EqLawful) :
    Requires cfg E NotLonger (fun u => u.isTime = true → cfg.fixedWidth = true) where
  parts := NotLonger.parts
  nums _ _ _ := nums_notLonger cfg
  time _ h ht := ⟨h ht, rfl⟩
  arranged _ _ _ := rfl
  bits _ _ _ _ := rfl
  eq _ _ _ a b c hac hbc := he.2 _ a c b hac (he.1 _ _ _ hbc)

theorem requires_plain (cfg : Cfg) (E : Env ι) {R : Bytes → Bytes → Bytes → Prop} (hR : Joins R) {p : Ty ι → Prop}
    (hn : ∀ u, p u → u.hasNumber = true → Nums cfg R)
    (hp : ∀ u, p u → u.isTime = false ∧ u.isArranged = false ∧ (u.isBits = true → cfg.specialised = false)) :
    Requires cfg E R p where
  parts := hR
  nums := hn
  time u h ht := by rw [(hp u h).1] at ht; cases ht
  arranged u h ht := by rw [(hp u h).2.1] at ht; cases ht
  bits u h ht hs := by rw [(hp u h).2.2 ht] at hs; cases hs
  eq k v h := by
    have := (hp _ h).2.1
    cases this

theorem Ty.Built.imp {p q : Ty ι → Prop} (h : ∀ u, p u → q u) : ∀ {t : Ty ι}, t.Built p → t.Built q := by
  intro t
  induction t <;> simp_all [Ty.Built]

theorem Ty.Built.and {p q : Ty ι → Prop} : ∀ {t : Ty ι}, t.Built p → t.Built q → t.Built fun u => p u ∧ q u := by
  intro t
  induction t <;> simp_all [Ty.Built]

end

end Revision
