import Verif.Proofs.PathDerive
import Verif.Proofs.PathOld
import Verif.Proofs.PathView

/-! Helper lemmas: following paths through structs written at earlier revisions. -/

namespace Revision

variable {V W β : Type}

/-- The fields of the current revision, the bytes of those that were there at revision `k`, and what
the reader gets for them. -/
inductive Rows (k : Nat) (c : FieldDecl V → Codec V) : List (FieldStep V W) → List Bytes → List W → Prop
  | nil : Rows k c [] [] []
  | kept {s ss v b w bs ws} : s.new.existsAt k = true → (c s.old).valid v → (c s.old).enc v = .ok b →
      s.mig v = some w → Rows k c ss bs ws → Rows k c (s :: ss) (b :: bs) (w :: ws)
  | added {s ss w bs ws} : s.new.existsAt k = false → s.new.dflt k = .ok w → Rows k c ss bs ws →
      Rows k c (s :: ss) bs (w :: ws)

/-- No field is gone at `tgt`. -/
def StepsKept (ss : List (FieldStep V W)) (cur tgt : Nat) : Prop :=
  ∀ s ∈ ss, s.new.existsAt cur = true → s.new.existsAt tgt = true

theorem migrate_kept {cur tgt : Nat} {fs : List (FieldDecl W)} {vs ws : List W} (hk : NoneRemoved fs cur tgt)
    (h : migrate cur tgt fs vs = .ok ws) : ∃ all, migratedFields cur tgt fs vs = .ok all ∧ ws = all.map (·.2) := by
  unfold migrate at h
  obtain ⟨all, hall, h⟩ := Res.bind_eq_ok.1 h
  refine ⟨all, hall, ?_⟩
  have hf := migratedFields_fields fs vs all hall
  have hin : ∀ p ∈ all, p.1.existsAt tgt = true := by
    intro p hp
    have hm : p.1 ∈ all.map (·.1) := List.mem_map.2 ⟨p, hp, rfl⟩
    rw [hf, List.mem_filter] at hm
    by_cases hc : p.1.existsAt cur = true
    · exact hk _ hm.1 hc
    · simpa [hc] using hm.2
  have h1 : all.filter (fun p => !p.1.existsAt tgt) = [] := by
    rw [List.filter_eq_nil_iff]; intro p hp; simp [hin p hp]
  have h2 : all.filter (fun p => p.1.existsAt tgt) = all := List.filter_eq_self.2 hin
  rw [h1, h2] at h
  cases h
  rfl

theorem rows_of {c : FieldDecl V → Codec V} {k tgt : Nat} : ∀ (ss : List (FieldStep V W)) (vs : List V) (bs : List Bytes)
    (ys : List W) (all : List (FieldDecl W × W)), (∀ s ∈ ss, s.SameDecl) → StepsKept ss k tgt →
    AllValid c (aliveFields (ss.map (·.old)) k) vs → Encodes c (aliveFields (ss.map (·.old)) k) vs bs →
    migrateLive (fun s => s.new.existsAt k) FieldStep.mig ss vs = some ys →
    migratedFields k tgt (ss.map (·.new)) ys = .ok all →
    Rows k c (ss.filter fun s => s.new.existsAt tgt) bs (all.map (·.2))
  | [], vs, bs, ys, all, _, _, hv, he, _, hm => by
    cases he
    cases hm
    exact .nil
  | s :: ss, vs, bs, ys, all, hs, hk, hv, he, hl, hm => by
    have ih := fun vs bs ys all => rows_of (c := c) (k := k) (tgt := tgt) ss vs bs ys all
      (fun x hx => hs x (List.mem_cons_of_mem _ hx)) (fun x hx => hk x (List.mem_cons_of_mem _ hx))
    have hex := (hs s List.mem_cons_self).exists k
    unfold aliveFields at hv he ih
    rw [List.map_cons] at hv he hm
    unfold migrateLive at hl
    unfold migratedFields at hm
    by_cases ha : s.new.existsAt k = true
    · rw [List.filter_cons_of_pos (by rw [hex]; exact ha)] at hv he
      rw [if_pos ha] at hl hm
      cases hv with
      | cons hv1 hv2 =>
      cases he with
      | cons he1 he2 =>
      simp only [Option.bind_eq_bind, Option.bind_eq_some_iff] at hl
      obtain ⟨w, hw, ws, hws, hl⟩ := hl
      cases hl
      simp only at hm
      obtain ⟨rest, hr, hm⟩ := Res.bind_eq_ok.1 hm
      cases hm
      rw [List.filter_cons_of_pos (by exact hk s List.mem_cons_self ha)]
      exact .kept ha hv1 he1 hw (ih _ _ _ _ hv2 he2 hws hr)
    · rw [List.filter_cons_of_neg (by rw [hex]; exact ha)] at hv he
      rw [if_neg ha] at hl hm
      by_cases ht : s.new.existsAt tgt = true
      · rw [if_pos ht] at hm
        obtain ⟨w, hw, hm⟩ := Res.bind_eq_ok.1 hm
        obtain ⟨rest, hr, hm⟩ := Res.bind_eq_ok.1 hm
        cases hm
        rw [List.filter_cons_of_pos (by exact ht)]
        exact .added (by simpa using ha) hw (ih _ _ _ _ hv he hl hr)
      · rw [if_neg ht] at hm
        rw [List.filter_cons_of_neg (by exact ht)]
        exact ih _ _ _ _ hv he hl hm

theorem Rows.lengths {c : FieldDecl V → Codec V} {k : Nat} {ss : List (FieldStep V W)} {bs ws} (h : Rows k c ss bs ws) :
    ws.length = ss.length := by
  induction h with
  | nil => rfl
  | kept _ _ _ _ _ ih | added _ _ _ ih => simp [ih]

/-- If every field was there, every field has its bytes. -/
theorem Rows.get {c : FieldDecl V → Codec V} {k : Nat} {ss : List (FieldStep V W)} {bs ws} (h : Rows k c ss bs ws) :
    (∀ s ∈ ss, s.new.existsAt k = true) → bs.length = ss.length ∧
    ∀ (i : Nat) {s b w}, ss[i]? = some s → bs[i]? = some b → ws[i]? = some w →
      ∃ v, (c s.old).valid v ∧ (c s.old).enc v = .ok b ∧ s.mig v = some w := by
  induction h with
  | nil => exact fun _ => ⟨rfl, fun i s b w hs => by simp at hs⟩
  | kept h1 h2 h3 h4 _ ih =>
    intro ha
    obtain ⟨i1, i2⟩ := ih fun s hs => ha s (List.mem_cons_of_mem _ hs)
    refine ⟨by simp [i1], ?_⟩
    intro i s b w hs hb hw
    cases i with
    | zero =>
      simp only [List.getElem?_cons_zero, Option.some.injEq] at hs hb hw
      subst hs hb hw
      exact ⟨_, h2, h3, h4⟩
    | succ i => exact i2 i (by simpa using hs) (by simpa using hb) (by simpa using hw)
  | added h1 _ _ _ =>
    intro ha
    rw [ha _ List.mem_cons_self] at h1
    cases h1

/-- Skipping the first fields. -/
theorem passFields_old {c : FieldDecl V → Codec V} {k : Nat} (t : Bytes) {ss : List (FieldStep V W)} {bs ws}
    (h : Rows k c ss bs ws) :
    (∀ s ∈ ss, StructRepr.present s.new k = s.new.existsAt k ∧ (s.new.existsAt k = true → ∀ v b, (c s.old).valid v →
      (c s.old).enc v = .ok b → ∀ t, s.new.optimisedC.skip (b ++ t) = .ok ((), t))) →
    ∀ (idx j : Nat), j ≤ ss.length → ∃ o bs',
      passFields idx (ss.map (·.new)) (List.replicate j false) (.wire k) (bs.flatten ++ t) =
        .ok ((o, .wire k), bs'.flatten ++ t) ∧ Rows k c (ss.drop j) bs' (ws.drop j) := by
  induction h with
  | nil =>
    intro _ idx j hj
    have : j = 0 := by simpa using hj
    subst this
    exact ⟨_, [], rfl, .nil⟩
  | @kept s ss v b w bs ws h1 h2 h3 h4 h5 ih =>
    intro hs idx j hj
    cases j with
    | zero => exact ⟨_, b :: bs, rfl, .kept h1 h2 h3 h4 h5⟩
    | succ j =>
      obtain ⟨o, bs', ho, hr⟩ := ih (fun s hsm => hs s (List.mem_cons_of_mem _ hsm)) (idx + 1) j (by simpa using hj)
      obtain ⟨hp, hk⟩ := hs s List.mem_cons_self
      refine ⟨none :: o, bs', ?_, by simpa using hr⟩
      simp only [List.map_cons, List.replicate_succ, passFields, StructRepr.skipField, hp, h1, if_true, List.flatten_cons,
        List.append_assoc, Rd.bind_assoc]
      rw [Rd.bind_of_ok (hk h1 v b h2 h3 _), Rd.pure_bind, Rd.bind_of_ok ho]
      rfl
  | @added s ss w bs ws h1 h2 h3 ih =>
    intro hs idx j hj
    cases j with
    | zero => exact ⟨_, bs, rfl, .added h1 h2 h3⟩
    | succ j =>
      obtain ⟨o, bs', ho, hr⟩ := ih (fun s hsm => hs s (List.mem_cons_of_mem _ hsm)) (idx + 1) j (by simpa using hj)
      obtain ⟨hp, -⟩ := hs s List.mem_cons_self
      refine ⟨none :: o, bs', ?_, by simpa using hr⟩
      simp only [List.map_cons, List.replicate_succ, passFields, StructRepr.skipField, hp, h1, Bool.false_eq_true,
        if_false, Rd.pure_bind]
      rw [Rd.bind_of_ok ho]
      rfl

/-- What the reader gets for a struct. -/
def structMig (k tgt : Nat) (ss : List (FieldStep V W)) (vs : List V) : Option (List W) :=
  (migrateLive (fun s => s.new.existsAt k) FieldStep.mig ss vs).bind fun ws => (migrate k tgt (ss.map (·.new)) ws).ok?

/-- The walker of a struct written at an earlier revision. -/
theorem walkStruct_old (cfg : Cfg) {h : List Entry} (hh : ValidHistory h) {ss : List (FieldStep V W)} {k : Nat}
    (h1 : 1 ≤ k) (h2 : k ≤ h.length) (hs : ∀ s ∈ ss, s.SameDecl) (hc : NotConverted h (ss.map (·.new)) k)
    (hk : StepsKept ss k h.length) {vs : List V} {b : Bytes} {ws : List W}
    (hv : (structC cfg (h.take k) (fieldsAsOf k (ss.map (·.old)))).valid vs)
    (hb : (structC cfg (h.take k) (fieldsAsOf k (ss.map (·.old)))).enc vs = .ok b)
    (hm : structMig k h.length ss vs = some ws) (t : Bytes) :
    ∃ bs, Rows k (fun f => f.wire (lastEntry (h.take k))) (ss.filter fun s => s.new.existsAt h.length) bs ws ∧
      (((lastEntry (h.take k)).optimised = true ∧ (lastEntry (h.take k)).indexedStruct = true ∧
          (offsetTable bs ++ bs.flatten).length < 2 ^ 32 ∧
          walkStruct cfg h (ss.map (·.new)) (b ++ t) =
            .ok (.indexed (offsetTable bs ++ bs.flatten) (aliveCount (ss.map (·.new)) h.length), t)) ∨
        (((lastEntry (h.take k)).optimised = true → (lastEntry (h.take k)).indexedStruct = false) ∧
          walkStruct cfg h (ss.map (·.new)) (b ++ t) = .ok (.wire k, bs.flatten ++ t))) := by
  have hmem : lastEntry (h.take k) ∈ h := List.mem_of_getElem? (hh.lastEntry_take h1 h2)
  have hrev : (lastEntry (h.take k)).revision = k := by
    have := hh.revision_get (hh.lastEntry_take h1 h2)
    omega
  have hfit := hh.fits
  obtain ⟨bs, hval, henc, hsz, rfl⟩ := structC_wrote cfg hh (ss.map (·.old)) h1 h2 vs b hv hb
  unfold structMig at hm
  obtain ⟨ys, hy, hm⟩ := Option.bind_eq_some_iff.1 hm
  obtain ⟨all, hall, rfl⟩ := migrate_kept (fs := ss.map (·.new)) (by
    intro f hf
    obtain ⟨s, hsm, rfl⟩ := List.mem_map.1 hf
    exact hk s hsm) (Res.ok?_eq_some.1 hm)
  refine ⟨bs, rows_of ss vs bs ys all hs hk hval henc hy hall, ?_⟩
  generalize lastEntry (h.take k) = e at *
  subst hrev
  have hw := walkStruct_direct cfg hh hmem hc (readU16_encU16 cfg (by omega) (structLayout e bs ++ t))
  rw [List.append_assoc, hw]
  unfold structLayout structPayload at *
  cases ho : e.optimised with
  | false => exact .inr ⟨nofun, by simp⟩
  | true =>
    cases hi : e.indexedStruct with
    | false =>
      right
      have hlt := hsz ho
      rw [hi] at hlt
      simp only [Bool.false_eq_true, if_false] at hlt
      refine ⟨fun _ => rfl, ?_⟩
      simp only [if_true, Bool.false_eq_true, if_false, List.append_assoc]
      rw [Rd.bind_of_ok (readVarlenLen_append _ (by omega) _)]
      rfl
    | true =>
      left
      have hlt := hsz ho
      rw [hi] at hlt
      simp only [if_true] at hlt
      refine ⟨rfl, rfl, hlt, ?_⟩
      simp only [if_true, List.append_assoc]
      rw [Rd.bind_of_ok (readVarlenLen_append _ (by omega) _)]
      have := readBorrowed_append (offsetTable bs ++ bs.flatten) t rfl
      rw [List.append_assoc] at this
      rw [Rd.bind_of_ok this]
      rfl

/-- What the walkers need of the fields of an older revision. -/
structure FieldStep.Walks (s : FieldStep V W) (e : Entry) : Prop where
  wire : s.old.wire e = s.old.optimisedC
  reads : s.old.optimisedC.Reads false s.new.optimisedC s.mig

/-- Going to a field. -/
theorem fieldAt_old (cfg : Cfg) {h : List Entry} (hh : ValidHistory h) {ss : List (FieldStep V W)} {k : Nat}
    (h1 : 1 ≤ k) (h2 : k ≤ h.length) (hs : ∀ s ∈ ss, s.SameDecl) (hc : NotConverted h (ss.map (·.new)) k)
    (hk : StepsKept ss k h.length)
    (hw : ∀ s ∈ ss, s.new.existsAt k = true → s.Walks (lastEntry (h.take k)))
    (hix : (lastEntry (h.take k)).optimised = true → (lastEntry (h.take k)).indexedStruct = true →
      ∀ s ∈ ss, s.new.existsAt h.length = true → s.new.existsAt k = true)
    {idx : Nat} {s : FieldStep V W} (hsi : (ss.filter fun s => s.new.existsAt h.length)[idx]? = some s) {get : Get W β}
    {inner : W → Option β} (hdec : ∀ out, get = .decode out → ∀ w, inner w = some (out w))
    (hg : s.new.existsAt k = true → get.FindsM s.old.optimisedC s.mig inner)
    (hnew : s.new.existsAt k = false → ∃ out, get = .decode out)
    (hx : s.new.existsAt k = true → s.new.isIndexed = true →
      (∃ out, get = .decode out) ∧ (lastEntry (h.take k)).indexedStruct = false) :
    Rd.FindsM (structC cfg (h.take k) (fieldsAsOf k (ss.map (·.old)))) (structMig k h.length ss)
      (walkStruct cfg h (ss.map (·.new)) >>=
        fieldAt ((ss.filter fun s => s.new.existsAt h.length).map (·.new)) idx s.new get)
      (fun ws => ws[idx]?.bind inner) := by
  intro vs b ws hv hb hm t
  obtain ⟨bs, hrows, hcase⟩ := walkStruct_old cfg hh h1 h2 hs hc hk hv hb hm t
  have hac : aliveCount (ss.map (·.new)) h.length = (ss.filter fun s => s.new.existsAt h.length).length := by
    show ((ss.map (·.new)).filter _).length = _
    rw [List.filter_map, List.length_map]
    rfl
  have hlive : ∀ s ∈ ss.filter fun s => s.new.existsAt h.length, s ∈ ss ∧ s.new.existsAt h.length = true :=
    fun s hsm => List.mem_filter.1 hsm
  generalize (ss.filter fun s => s.new.existsAt h.length) = live at *
  obtain ⟨hsl, hse⟩ := List.getElem?_eq_some_iff.1 hsi
  have hsm : s ∈ live := hse ▸ List.getElem_mem hsl
  have hwl : idx < ws.length := by rw [hrows.lengths]; exact hsl
  simp only [List.getElem?_eq_getElem hwl, Option.bind_some]
  rcases hcase with ⟨ho, hi, hlt, hwk⟩ | ⟨hni, hwk⟩
  · have hall : ∀ s ∈ live, s.new.existsAt k = true := fun s hsm => hix ho hi s (hlive s hsm).1 (hlive s hsm).2
    obtain ⟨hbl, hget⟩ := hrows.get hall
    have hex := hall s hsm
    have hbi : idx < bs.length := by omega
    obtain ⟨v, hv1, he1, hm1⟩ := hget idx hsi (List.getElem?_eq_getElem hbi) (List.getElem?_eq_getElem hwl)
    obtain ⟨hwire, hread⟩ := hw s (hlive s hsm).1 hex
    have hnx : s.new.isIndexed = false := by
      cases hxi : s.new.isIndexed with
      | false => rfl
      | true => rw [(hx hex hxi).2] at hi; cases hi
    have hpl : s.new.optimisedC = s.new.plain := by simp [FieldDecl.optimisedC, hnx]
    have hg := hg hex
    simp only [hwire] at hv1 he1
    rw [Rd.bind_of_ok hwk]
    cases get with
    | decode out =>
      obtain ⟨o, hp⟩ := passFields_skip_indexed (offsetTable bs ++ bs.flatten) (aliveCount (ss.map (·.new)) h.length) t
        (live.map (·.new)) 0 idx
      refine ⟨t, ?_⟩
      simp only [fieldAt]
      rw [Rd.bind_of_ok hp]
      simp only [StructRepr.decodeField, hac, ← hbl]
      rw [fieldSlice_run bs hlt hbi, Rd.lift_ok, Rd.pure_bind]
      have hd := hread.read hv1 he1 hm1 []
      rw [List.append_nil, hpl] at hd
      simp only [Rd.within, hd, Rd.lift_ok, Rd.pure_bind, hdec out rfl]
      rfl
    | walk m =>
      obtain ⟨r, hr⟩ := hg _ _ _ hv1 he1 hm1 []
      rw [List.append_nil] at hr
      refine ⟨t, ?_⟩
      simp only [fieldAt, StructRepr.intoFieldBytes, hac, ← hbl]
      rw [checkedFieldSlice_run bs hlt hbi, Rd.lift_ok, Rd.pure_bind]
      simp only [Rd.within, hr]
      rfl
  · rw [Rd.bind_of_ok hwk]
    have hpres : ∀ s ∈ live, StructRepr.present s.new k = s.new.existsAt k := fun s hsm =>
      present_eq h2 (hlive s hsm).2
    obtain ⟨o, bs', hp, hr⟩ := passFields_old t hrows (fun s hsm => ⟨hpres s hsm, fun hex v b hv hb t => by
      obtain ⟨hwire, hread⟩ := hw s (hlive s hsm).1 hex
      simp only [hwire] at hv hb
      exact hread.pass hv hb t⟩) 0 idx (by omega)
    have hpr := hpres s hsm
    rw [List.drop_eq_getElem_cons hsl, List.drop_eq_getElem_cons hwl, hse] at hr
    generalize ws[idx] = w at *
    cases hr with
    | @kept _ _ v b1 _ bs1 _ r1 r2 r3 r4 r5 =>
      obtain ⟨hwire, hread⟩ := hw s (hlive s hsm).1 r1
      simp only [hwire] at r2 r3
      rw [List.flatten_cons, List.append_assoc] at hp
      cases get with
      | decode out =>
        refine ⟨bs1.flatten ++ t, ?_⟩
        simp only [fieldAt]
        rw [Rd.bind_of_ok hp]
        simp only [StructRepr.decodeField, hpr, r1, if_true, Rd.bind_assoc, Rd.pure_bind]
        rw [Rd.bind_of_ok (hread.read r2 r3 r4 _), hdec out rfl]
        rfl
      | walk m =>
        obtain ⟨r, hr⟩ := hg r1 _ _ _ r2 r3 r4 (bs1.flatten ++ t)
        refine ⟨r, ?_⟩
        simp only [fieldAt]
        rw [Rd.bind_of_ok hp]
        simp only [StructRepr.walkField, hpr, r1, if_true]
        exact hr
    | added r1 r2 r3 =>
      obtain ⟨out, rfl⟩ := hnew r1
      refine ⟨bs'.flatten ++ t, ?_⟩
      simp only [fieldAt]
      rw [Rd.bind_of_ok hp]
      simp only [StructRepr.decodeField, hpr, r1, Bool.false_eq_true, if_false, r2, Rd.lift_ok, Rd.pure_bind,
        hdec out rfl]
      rfl

/-- On the bytes `o` writes for a value the function gives what `f` says of the migrated value. -/
def Codec.ViewFindsM {α α' : Type} (o : Codec α) (mig : α → Option α') (m : Bytes → Res (Option β)) (f : α' → Option β) :
    Prop :=
  ∀ v b v', o.valid v → o.enc v = .ok b → mig v = some v' → m b = .ok (f v')

/-- Going to the view of a field. -/
theorem viewAt_old (cfg : Cfg) {h : List Entry} (hh : ValidHistory h) {ss : List (FieldStep V W)} {k : Nat}
    (h1 : 1 ≤ k) (h2 : k ≤ h.length) (hs : ∀ s ∈ ss, s.SameDecl) (hc : NotConverted h (ss.map (·.new)) k)
    (hk : StepsKept ss k h.length)
    (hw : ∀ s ∈ ss, s.new.existsAt k = true → s.Walks (lastEntry (h.take k)))
    (hix : (lastEntry (h.take k)).optimised = true → (lastEntry (h.take k)).indexedStruct = true →
      ∀ s ∈ ss, s.new.existsAt h.length = true → s.new.existsAt k = true)
    {idx : Nat} {s : FieldStep V W} (hsi : (ss.filter fun s => s.new.existsAt h.length)[idx]? = some s)
    {m : Bytes → Res (Option β)} {inner : W → Option β} (hxi : s.new.isIndexed = true)
    (hex : s.new.existsAt k = true) (hg : s.old.indexed.ViewFindsM s.mig m inner) :
    Rd.FindsM (structC cfg (h.take k) (fieldsAsOf k (ss.map (·.old)))) (structMig k h.length ss)
      (walkStruct cfg h (ss.map (·.new)) >>=
        viewAt ((ss.filter fun s => s.new.existsAt h.length).map (·.new)) idx s.new m)
      (fun ws => ws[idx]?.bind inner) := by
  intro vs b ws hv hb hm t
  obtain ⟨bs, hrows, hcase⟩ := walkStruct_old cfg hh h1 h2 hs hc hk hv hb hm t
  have hac : aliveCount (ss.map (·.new)) h.length = (ss.filter fun s => s.new.existsAt h.length).length := by
    show ((ss.map (·.new)).filter _).length = _
    rw [List.filter_map, List.length_map]
    rfl
  have hlive : ∀ s ∈ ss.filter fun s => s.new.existsAt h.length, s ∈ ss ∧ s.new.existsAt h.length = true :=
    fun s hsm => List.mem_filter.1 hsm
  generalize (ss.filter fun s => s.new.existsAt h.length) = live at *
  obtain ⟨hsl, hse⟩ := List.getElem?_eq_some_iff.1 hsi
  have hsm : s ∈ live := hse ▸ List.getElem_mem hsl
  have hwl : idx < ws.length := by rw [hrows.lengths]; exact hsl
  simp only [List.getElem?_eq_getElem hwl, Option.bind_some]
  obtain ⟨hwire, hread⟩ := hw s (hlive s hsm).1 hex
  have hxo : s.old.isIndexed = true := by
    have := (hs s (hlive s hsm).1).1
    unfold FieldDecl.isIndexed at hxi ⊢
    rw [this]
    exact hxi
  have hpo : s.old.optimisedC = s.old.indexed := by simp [FieldDecl.optimisedC, hxo]
  have hpn : s.new.optimisedC = s.new.indexed := by simp [FieldDecl.optimisedC, hxi]
  rw [hpo] at hwire
  rw [hpo, hpn] at hread
  rcases hcase with ⟨ho, hi, hlt, hwk⟩ | ⟨hni, hwk⟩
  · have hall : ∀ s ∈ live, s.new.existsAt k = true := fun s hsm => hix ho hi s (hlive s hsm).1 (hlive s hsm).2
    obtain ⟨hbl, hget⟩ := hrows.get hall
    have hbi : idx < bs.length := by omega
    obtain ⟨v, hv1, he1, hm1⟩ := hget idx hsi (List.getElem?_eq_getElem hbi) (List.getElem?_eq_getElem hwl)
    simp only [hwire] at hv1 he1
    have hfind := hg _ _ _ hv1 he1 hm1
    rw [Rd.bind_of_ok hwk]
    obtain ⟨o, hp⟩ := passFields_skip_indexed (offsetTable bs ++ bs.flatten) (aliveCount (ss.map (·.new)) h.length) t
      (live.map (·.new)) 0 idx
    refine ⟨t, ?_⟩
    simp only [viewAt]
    rw [Rd.bind_of_ok hp]
    simp only [StructRepr.viewField, hac, ← hbl]
    rw [fieldSlice_run bs hlt hbi, Rd.lift_ok, Rd.pure_bind, hfind]
    rfl
  · rw [Rd.bind_of_ok hwk]
    have hpres : ∀ s ∈ live, StructRepr.present s.new k = s.new.existsAt k := fun s hsm =>
      present_eq h2 (hlive s hsm).2
    obtain ⟨o, bs', hp, hr⟩ := passFields_old t hrows (fun s hsm => ⟨hpres s hsm, fun hex v b hv hb t => by
      obtain ⟨hwire, hread⟩ := hw s (hlive s hsm).1 hex
      simp only [hwire] at hv hb
      exact hread.pass hv hb t⟩) 0 idx (by omega)
    rw [List.drop_eq_getElem_cons hsl, List.drop_eq_getElem_cons hwl, hse] at hr
    generalize ws[idx] = w at *
    cases hr with
    | @kept _ _ v b1 _ bs1 _ r1 r2 r3 r4 r5 =>
      simp only [hwire] at r2 r3
      rw [List.flatten_cons, List.append_assoc] at hp
      refine ⟨bs1.flatten ++ t, ?_⟩
      simp only [viewAt]
      rw [Rd.bind_of_ok hp]
      simp only [StructRepr.viewField]
      rw [Rd.bind_of_ok (consumed_run (hread.pass r2 r3 _)), hg _ _ _ r2 r3 r4]
      rfl
    | added r1 r2 r3 =>
      rw [hex] at r1
      cases r1

/-- Decoding a field of a struct that is converted first. -/
theorem fieldAt_converted (cfg : Cfg) {h : List Entry} (hh : ValidHistory h) {fs : List (FieldDecl V)} {e : Entry}
    (he : e ∈ h) (hold : e.revision ≠ h.length) (hcv : structHasConvert fs = true) (ho : (lastEntry h).optimised = false)
    (hp : ∀ f ∈ fs, f.existsAt h.length = true →
      f.plain.Faithful ∧ f.opts.fixed = false ∧ f.opts.specialised = false)
    {s t r b : Bytes} (hs : readU16 cfg s = .ok (e.revision, t)) {ws : List V}
    (hd : (structC cfg h fs).dec s = .ok (ws, r)) (hv : (structC cfg h fs).valid ws)
    (hb : (structC cfg h fs).enc ws = .ok b) {idx : Nat} {f : FieldDecl V}
    (hfi : (aliveFields fs h.length)[idx]? = some f) {out : V → β} :
    ∃ r', (walkStruct cfg h fs >>= fieldAt (aliveFields fs h.length) idx f (.decode out)) s =
      .ok (ws[idx]?.map out, r') := by
  have hfit := hh.fits
  have hle := hh.revision_le he
  have hlr := hh.lastEntry_revision
  have hb' := hb
  unfold structC at hd hv hb'
  simp only [hh.latest_eq] at hd hv hb'
  have hd' : deserializeStructBody e h.length fs t = .ok (ws, r) := by
    have := hd
    unfold dispatchRevision at this
    rw [Rd.bind_of_ok hs] at this
    simpa only [hh.find he] using this
  obtain ⟨body', hbody, hb'⟩ := Res.bind_eq_ok.1 hb'
  cases hb'
  rw [validFields_iff] at hv
  obtain ⟨bs, hbs⟩ := serializeStructBody_ok (lastEntry h) fs ws body' (by rw [hlr]; exact hv.length_eq) hbody
  rw [serializeStructBody_encodes _ fs ws bs hbs] at hbody
  unfold structLayout at hbody
  simp only [ho, Bool.false_eq_true, false_and, if_false] at hbody
  cases hbody
  rw [hlr] at hbs
  have hwire : ∀ f ∈ aliveFields fs h.length, f.wire (lastEntry h) = f.plain := by
    intro f hfm
    obtain ⟨hfm, ha⟩ := List.mem_filter.1 hfm
    have := hp f hfm ha
    simp [FieldDecl.wire, ho, FieldDecl.legacyC, this.2.1, this.2.2]
  have hval := hv.congr hwire
  have henc := hbs.congr hwire
  have hg : (structHasConvert fs && e.revision != h.length) = true := by simp [hcv, hold]
  have hwalk : walkStruct cfg h fs s =
      .ok (.converted (encU16 cfg h.length ++ bs.flatten) (encU16 cfg h.length).length, r) := by
    unfold walkStruct
    rw [Rd.bind_of_ok hs, hh.latest_eq, if_neg (by omega)]
    simp only [hg, if_true, afterHeader_hit hh he]
    rw [Rd.bind_of_ok hd', hb]
    simp only [Rd.lift_ok, Rd.pure_bind, readU16_encU16 cfg (show h.length < 2 ^ 16 by omega) bs.flatten]
    rw [List.length_append, Nat.add_sub_cancel]
    rfl
  have hfa : ∀ f ∈ aliveFields fs h.length, f.plain.Faithful := fun f hfm =>
    (hp f (List.mem_filter.1 hfm).1 (List.mem_filter.1 hfm).2).1
  have hlen := hval.length_eq
  obtain ⟨hfl, rfl⟩ := List.getElem?_eq_some_iff.1 hfi
  have hwl : idx < ws.length := by omega
  have hbl : idx < bs.length := by have := henc.length_eq; omega
  have hpass := pass_converted henc hval hfa r 0 (List.replicate idx false) (encU16 cfg h.length)
    (by rw [List.length_replicate]; omega)
  rw [List.length_replicate] at hpass
  refine ⟨r, ?_⟩
  rw [Rd.bind_of_ok hwalk]
  simp only [fieldAt]
  rw [Rd.bind_of_ok hpass]
  have hv1 := hval.get idx hfl hwl
  have he1 := henc.get idx hfl hwl hbl
  have hcur := atCursor_run (m := (aliveFields fs h.length)[idx].plain.dec)
    (encU16 cfg h.length ++ (bs.take idx).flatten) bs[idx] (bs.drop (idx + 1)).flatten
    (fun t => (hfa _ (List.getElem_mem hfl)).round_trip _ _ hv1 he1 t)
  have hsplit : encU16 cfg h.length ++ bs.flatten =
      (encU16 cfg h.length ++ (bs.take idx).flatten) ++ (bs[idx] ++ (bs.drop (idx + 1)).flatten) := by
    have hfl' : bs.flatten = (bs.take idx).flatten ++ (bs[idx] ++ (bs.drop (idx + 1)).flatten) := by
      rw [← List.flatten_cons, ← List.drop_eq_getElem_cons hbl, ← List.flatten_append, List.take_append_drop]
    rw [List.append_assoc, ← hfl']
  simp only [StructRepr.decodeField]
  rw [hsplit, hcur]
  simp only [Rd.lift_ok, Rd.pure_bind, List.getElem?_eq_getElem hwl]
  rfl

end Revision
