import Verif.Spec.Ty
import Verif.Proofs.Coll

/-! Helper lemmas: the closure of the supported types is lawful. -/

namespace Revision

theorem IntTy.bits_eight (k : IntTy) : k.bits = 8 * (k.bits / 8) := by cases k <;> rfl

theorem vecOf_lawful (cfg : Cfg) {E : Env ι} (t : Ty ι) {c} (hc : Codec.Lawful c) :
    (vecOf cfg E t c).Lawful := by
  cases t <;> simp only [vecOf] <;> try exact vecC_lawful cfg _ hc
  case bool => split
               · exact boolsC_lawful cfg _
               · exact vecC_lawful cfg _ hc
  case int k => split
                · exact bulkC_lawful cfg _ k.bits_eight
                · exact vecC_lawful cfg _ hc
  case float n => split
                  · exact bulkC_lawful cfg _ rfl
                  · exact vecC_lawful cfg _ hc
  case uuid => split
               · exact bulkC_lawful cfg _ rfl
               · exact vecC_lawful cfg _ hc

theorem Ty.codec_lawful (cfg : Cfg) {E : Env ι} (hE : E.Lawful) (t : Ty ι) :
    (t.codec cfg E).Lawful := by
  induction t with
  | unit => exact unitC_lawful
  | bool => exact boolC_lawful
  | int k => exact intC_lawful cfg k
  | float n => exact floatC_lawful _
  | char => exact charC_lawful
  | string => exact stringC_lawful cfg _
  | path => exact pathC_lawful cfg _
  | bytes => exact bytesC_lawful cfg _
  | uuid => exact uuidC_lawful
  | duration => exact durationC_lawful cfg
  | systemTime => exact systemTimeC_lawful cfg
  | notNan n => exact notNanC_lawful _
  | option t ih => exact optionC_lawful cfg ih
  | result t e iht ihe => exact resultC_lawful cfg iht ihe
  | bound t ih => exact boundC_lawful cfg ih
  | wrap t ih => exact wrapC_lawful ih
  | pair s t ihs iht => exact pairC_lawful ihs iht
  | array n t ih => exact arrayC_lawful n ih
  | vec t ih => exact vecOf_lawful cfg t ih
  | btreeMap k v ihk ihv =>
    have := hE.trans k
    exact btreeMapC_lawful cfg (hE.cap_mono _) (E.cmp k) ihk ihv
  | btreeSet k ih =>
    have := hE.trans k
    exact btreeSetC_lawful cfg (hE.cap_mono _) (E.cmp k) ih
  | hashMap k v ihk ihv => exact hashMapC_lawful cfg (hE.cap_mono _) (E.eq k) ihk ihv
  | hashSet k ih => exact hashSetC_lawful cfg (hE.cap_mono _) (E.eq k) ih
  | binaryHeap t ih =>
    have := hE.trans t
    exact binaryHeapC_lawful cfg (hE.cap_mono _) (E.cmp t) ih
  | vector t ih => exact vectorC_lawful cfg (hE.cap_mono _) ih
  | ext i => exact hE.ext i

theorem vecOf_checks (cfg : Cfg) {E : Env ι} (t : Ty ι) {c} : (vecOf cfg E t c).Checks := by
  cases t <;> simp only [vecOf] <;> try exact vecC_checks cfg _
  case bool => split
               · exact boolsC_checks cfg _
               · exact vecC_checks cfg _
  case int k => split
                · exact bulkC_checks cfg _ _ _
                · exact vecC_checks cfg _
  case float n => split
                  · exact bulkC_checks cfg _ _ _
                  · exact vecC_checks cfg _
  case uuid => split
               · exact bulkC_checks cfg _ _ _
               · exact vecC_checks cfg _

theorem vecOf_panicFree (cfg : Cfg) {E : Env ι} (hcap : ∀ t n, E.cap t n = true) (t : Ty ι) {c}
    (hc : Codec.PanicFree c) : (vecOf cfg E t c).PanicFree := by
  cases t <;> simp only [vecOf] <;> try exact vecC_panicFree cfg (hcap _) hc
  case bool => split
               · exact boolsC_panicFree cfg (hcap _)
               · exact vecC_panicFree cfg (hcap _) hc
  case int k => split
                · exact bulkC_panicFree cfg (hcap _) _ _
                · exact vecC_panicFree cfg (hcap _) hc
  case float n => split
                  · exact bulkC_panicFree cfg (hcap _) _ _
                  · exact vecC_panicFree cfg (hcap _) hc
  case uuid => split
               · exact bulkC_panicFree cfg (hcap _) _ _
               · exact vecC_panicFree cfg (hcap _) hc

/-! ### Checked skip -/

theorem checkLaw_of_discard {c : Codec α} (h : c.check = c.dec.discard) (hf : c.dec.Framed) :
    c.CheckLaw where
  framed := by rw [h]; exact hf.discard
  agree := by rw [h]; exact (Rd.Agree.refl _).discard
  strict := by
    intro s r hs
    rw [h] at hs
    exact Or.inl ((Rd.SameAccept.discard c.dec s r).1 hs)

theorem pairC_checkLaw {a : Codec α} {b : Codec β} (ha : a.CheckLaw) (hb : b.CheckLaw) :
    (pairC a b).CheckLaw where
  framed := Rd.Framed.bind ha.framed fun _ => hb.framed
  agree := Rd.Agree.bind ha.agree fun _ _ => Rd.Agree.bind_pure_left hb.agree
  strict := by
    intro s r hs
    obtain ⟨⟨⟩, r', h1, h2⟩ := Rd.bind_ok.1 hs
    simp only [pairC]
    rcases ha.strict _ _ h1 with ⟨x, hx⟩ | hp
    · rcases hb.strict _ _ h2 with ⟨y, hy⟩ | hp
      · exact Or.inl ⟨(x, y), by rw [Rd.bind_of_ok hx, Rd.bind_of_ok hy]; rfl⟩
      · exact Or.inr (by rw [Rd.bind_of_ok hx, Rd.bind_of_panic hp])
    · exact Or.inr (Rd.bind_of_panic hp)

theorem arrayC_checkLaw (n : Nat) {c : Codec α} (hc : c.CheckLaw) : (arrayC n c).CheckLaw where
  framed := Rd.Framed.repeatN hc.framed n
  agree := Rd.Agree.readN hc.agree n
  strict := by
    simp only [arrayC]
    induction n with
    | zero => intro s r h; simp [Rd.repeatN] at h; exact Or.inl ⟨[], by simp [Rd.readN, h]⟩
    | succ n ih =>
      intro s r hs
      obtain ⟨⟨⟩, r', h1, h2⟩ := Rd.bind_ok.1 hs
      simp only [Rd.readN]
      rcases hc.strict _ _ h1 with ⟨x, hx⟩ | hp
      · rcases ih _ _ h2 with ⟨y, hy⟩ | hp
        · exact Or.inl ⟨x :: y, by rw [Rd.bind_of_ok hx, Rd.bind_of_ok hy]; rfl⟩
        · exact Or.inr (by rw [Rd.bind_of_ok hx, Rd.bind_of_panic hp])
      · exact Or.inr (Rd.bind_of_panic hp)

theorem systemTimeC_checkLaw (cfg : Cfg) : (systemTimeC cfg).CheckLaw where
  framed := (systemTimeC_lawful cfg).skip_framed
  agree := (systemTimeC_lawful cfg).skip_agree
  strict := by
    intro s r hs
    obtain ⟨⟨⟩, r1, h1, h2⟩ := Rd.bind_ok.1 hs
    obtain ⟨secs, r1', h3, h4⟩ := Rd.bind_ok.1 h1
    obtain ⟨nanos, r2', h5, h6⟩ := Rd.bind_ok.1 h2
    simp at h4 h6
    subst h4 h6
    simp only [systemTimeC]
    rw [Rd.bind_of_ok h3, Rd.bind_of_ok h5]
    cases hd : durationNew secs nanos with
    | ok d =>
      simp only [Rd.lift_ok, Rd.pure_bind]
      split
      · exact Or.inl ⟨d, rfl⟩
      · exact Or.inr rfl
    | err e =>
      unfold durationNew at hd
      split at hd
      · simp at hd
      · simp only [] at hd; split at hd <;> simp at hd
    | panic => exact Or.inr rfl

theorem vecOf_check (cfg : Cfg) {E : Env ι} (t : Ty ι) {c} :
    (vecOf cfg E t c).check = (vecOf cfg E t c).dec.discard := by
  cases t <;> simp only [vecOf] <;> first | rfl | (split <;> rfl)

theorem Ty.codec_checkLaw (cfg : Cfg) {E : Env ι} (hE : E.Lawful) (hx : ∀ i, (E.extC i).CheckLaw)
    (t : Ty ι) : (t.codec cfg E).CheckLaw := by
  have hd := fun (t : Ty ι) h => checkLaw_of_discard (c := t.codec cfg E) h (t.codec_lawful cfg hE).framed
  induction t with
  | systemTime => exact systemTimeC_checkLaw cfg
  | pair s t ihs iht => exact pairC_checkLaw ihs iht
  | array n t ih => exact arrayC_checkLaw n ih
  | vec t => exact hd (.vec t) (vecOf_check cfg t)
  | ext i => exact hx i
  | _ => exact hd _ rfl

theorem Ty.codec_checks (cfg : Cfg) {E : Env ι} (hx : ∀ i, (E.extC i).Checks)
    (t : Ty ι) (ht : t.checkExact = true) : (t.codec cfg E).Checks := by
  induction t with
  | systemTime => simp [Ty.checkExact] at ht
  | pair s t ihs iht =>
    simp [Ty.checkExact] at ht
    exact pairC_checks (ihs ht.1) (iht ht.2)
  | array n t ih => exact arrayC_checks n (ih ht)
  | vec t => exact vecOf_checks cfg t
  | ext i => exact hx i
  | _ => exact Rd.SameAccept.discard _

theorem Ty.codec_panicFree (cfg : Cfg) {E : Env ι} (hcap : ∀ t n, E.cap t n = true)
    (hx : ∀ i, (E.extC i).PanicFree) (t : Ty ι) (ht : t.timeFree = true) :
    (t.codec cfg E).PanicFree := by
  induction t with
  | unit => exact unitC_panicFree
  | bool => exact boolC_panicFree
  | int k => exact intC_panicFree cfg k
  | float n => exact floatC_panicFree _
  | char => exact charC_panicFree
  | string => exact stringC_panicFree cfg (hcap _)
  | path => exact pathC_panicFree cfg (hcap _)
  | bytes => exact bytesC_panicFree cfg (hcap _)
  | uuid => exact uuidC_panicFree
  | duration => simp [Ty.timeFree] at ht
  | systemTime => simp [Ty.timeFree] at ht
  | notNan n => exact notNanC_panicFree _
  | option t ih => exact optionC_panicFree cfg (ih ht)
  | result t e iht ihe =>
    simp [Ty.timeFree] at ht
    exact resultC_panicFree cfg (iht ht.1) (ihe ht.2)
  | bound t ih => exact boundC_panicFree cfg (ih ht)
  | wrap t ih => exact wrapC_panicFree (ih ht)
  | pair s t ihs iht =>
    simp [Ty.timeFree] at ht
    exact pairC_panicFree (ihs ht.1) (iht ht.2)
  | array n t ih => exact arrayC_panicFree n (ih ht)
  | vec t ih => exact vecOf_panicFree cfg hcap t (ih ht)
  | btreeMap k v ihk ihv =>
    simp [Ty.timeFree] at ht
    exact collC_panicFree cfg (hcap _) (pairC_panicFree (ihk ht.1) (ihv ht.2))
  | btreeSet k ih => exact collC_panicFree cfg (hcap _) (ih ht)
  | hashMap k v ihk ihv =>
    simp [Ty.timeFree] at ht
    exact collC_panicFree cfg (hcap _) (pairC_panicFree (ihk ht.1) (ihv ht.2))
  | hashSet k ih => exact collC_panicFree cfg (hcap _) (ih ht)
  | binaryHeap t ih | vector t ih => exact collC_panicFree cfg (hcap _) (ih ht)
  | ext i => exact hx i

/-! ### Validity, as specified -/

theorem isNaN_iff (f : FloatTy) (v : BitVec (8 * f.bytes)) : isNaN f.bytes v = true ↔ f.IsNaN v := by
  cases f
  · have h := v.isLt
    have e1 : isNaN FloatTy.f32.bytes v = decide (v.toNat % 2 ^ 31 > 255 * 2 ^ 23) := rfl
    have e2 : FloatTy.f32.IsNaN v ↔ (v.toNat / 2 ^ 23 % 2 ^ 8 = 2 ^ 8 - 1 ∧ v.toNat % 2 ^ 23 ≠ 0) := Iff.rfl
    rw [e1, e2, decide_eq_true_iff]
    have h' : v.toNat < 2 ^ 32 := h
    generalize v.toNat = x at *
    omega
  · have h := v.isLt
    have e1 : isNaN FloatTy.f64.bytes v = decide (v.toNat % 2 ^ 63 > 2047 * 2 ^ 52) := rfl
    have e2 : FloatTy.f64.IsNaN v ↔ (v.toNat / 2 ^ 52 % 2 ^ 11 = 2 ^ 11 - 1 ∧ v.toNat % 2 ^ 52 ≠ 0) := Iff.rfl
    rw [e1, e2, decide_eq_true_iff]
    have h' : v.toNat < 2 ^ 64 := h
    generalize v.toNat = x at *
    omega

theorem heapShape_iff (cmp : α → α → Ordering) (l : List α) : HeapShape cmp l ↔
    ∀ i (h : i < l.length), 0 < i → (cmp l[i] (l[(i - 1) / 2]'(by omega))).isLE = true := by
  constructor
  · intro h i hi h0
    exact h i _ _ h0 (List.getElem?_eq_getElem hi) (List.getElem?_eq_getElem (by omega))
  · intro h i x p h0 hx hp
    obtain ⟨h1, rfl⟩ := List.getElem?_eq_some_iff.1 hx
    obtain ⟨h2, rfl⟩ := List.getElem?_eq_some_iff.1 hp
    exact h i h1 h0

theorem vecOf_valid_of (cfg : Cfg) {E : Env ι}
    (hmono : ∀ t m n, m ≤ n → E.cap t n = true → E.cap t m = true) (t : Ty ι) {c} (l : List (t.denote E.X))
    (h1 : l.length * t.elemBytes < 2 ^ 64) (h2 : E.cap t l.length = true)
    (h3 : ∀ a ∈ l, c.valid a) : (vecOf cfg E t c).valid l := by
  cases t <;> simp only [vecOf]
  case bool =>
    simp only [Ty.elemBytes] at h1
    split
    · refine ⟨by omega, fun _ => ⟨hmono _ _ _ ?_ h2, h2⟩⟩
      unfold divCeil8; omega
    · exact ⟨by omega, fun _ => h2, h3⟩
  case int k =>
    simp only [Ty.elemBytes] at h1
    have hl : l.length < 2 ^ 64 := Nat.lt_of_le_of_lt
      (Nat.le_mul_of_pos_right _ (by cases k <;> decide)) h1
    split
    · exact ⟨hl, h1, fun _ => h2⟩
    · exact ⟨hl, fun _ => h2, h3⟩
  case float f =>
    simp only [Ty.elemBytes] at h1
    have hl : l.length < 2 ^ 64 := Nat.lt_of_le_of_lt
      (Nat.le_mul_of_pos_right _ (by cases f <;> decide)) h1
    split
    · exact ⟨hl, h1, fun _ => h2⟩
    · exact ⟨hl, fun _ => h2, h3⟩
  case uuid =>
    simp only [Ty.elemBytes] at h1
    split
    · exact ⟨by omega, h1, fun _ => h2⟩
    · exact ⟨by omega, fun _ => h2, h3⟩
  all_goals exact ⟨by simp only [Ty.elemBytes] at h1; omega, fun _ => h2, h3⟩

theorem vecOf_valid_mem (cfg : Cfg) {E : Env ι} (t : Ty ι) {c} (l : List (t.denote E.X))
    (hc : ∀ v, (t.codec cfg E).valid v → t.WF E v) (hcc : c = t.codec cfg E)
    (h : (vecOf cfg E t c).valid l) : ∀ a ∈ l, t.WF E a := by
  subst hcc
  cases t <;> simp only [vecOf] at h
  case bool => intro a _; trivial
  case int k => intro a _; trivial
  case float f => intro a _; trivial
  case uuid => intro a _; trivial
  all_goals exact fun a ha => hc a (h.2.2 a ha)

theorem Ty.valid_of_mono (cfg : Cfg) {E : Env ι}
    (hmono : ∀ t m n, m ≤ n → E.cap t n = true → E.cap t m = true) (t : Ty ι) (v : t.denote E.X)
    (h1 : t.WF E v) (h2 : t.Fits E v) : (t.codec cfg E).valid v := by
  induction t with
  | unit => trivial
  | bool => trivial
  | int k => trivial
  | float n => trivial
  | char => trivial
  | string =>
    refine ⟨?_, fun _ => ?_⟩
    · simpa [strBytes] using h2.1
    · simpa [strBytes] using h2.2
  | path =>
    obtain ⟨s, rfl⟩ := h1
    exact ⟨⟨h2.1, fun _ => h2.2⟩, s, fromUtf8_strBytes s⟩
  | bytes => exact ⟨h2.1, fun _ => h2.2⟩
  | uuid => trivial
  | duration => exact h1
  | systemTime => exact h1
  | notNan f =>
    simp only [Ty.WF, ← isNaN_iff] at h1
    simpa [Ty.codec, notNanC] using h1
  | option t ih =>
    cases v with
    | none => trivial
    | some a => exact ih a (h1 a rfl) (h2 a rfl)
  | result t e iht ihe =>
    cases v with
    | ok a => exact iht a (h1.1 a rfl) (h2.1 a rfl)
    | error x => exact ihe x (h1.2 x rfl) (h2.2 x rfl)
  | bound t ih =>
    cases v with
    | unbounded => trivial
    | included a => exact ih a (h1 a (Or.inl rfl)) (h2 a (Or.inl rfl))
    | excluded a => exact ih a (h1 a (Or.inr rfl)) (h2 a (Or.inr rfl))
  | wrap t ih => exact ih v h1 h2
  | pair s t ihs iht => exact ⟨ihs _ h1.1 h2.1, iht _ h1.2 h2.2⟩
  | array n t ih => exact ⟨h1.1, fun a ha => ih a (h1.2 a ha) (h2 a ha)⟩
  | vec t ih => exact vecOf_valid_of cfg hmono t v h2.1 h2.2.1 fun a ha => ih a (h1 a ha) (h2.2.2 a ha)
  | btreeMap k w ihk ihv =>
    refine ⟨h2.1, h2.2.1, fun e he => ⟨ihk _ (h1.1 e he).1 (h2.2.2 e he).1,
      ihv _ (h1.1 e he).2 (h2.2.2 e he).2⟩, ?_⟩
    simp only [StrictAsc, List.pairwise_map]
    exact h1.2
  | btreeSet k ih => exact ⟨h2.1, h2.2.1, fun e he => ih _ (h1.1 e he) (h2.2.2 e he), h1.2⟩
  | hashMap k w ihk ihv =>
    refine ⟨h2.1, h2.2.1, fun e he => ⟨ihk _ (h1.1 e he).1 (h2.2.2 e he).1,
      ihv _ (h1.1 e he).2 (h2.2.2 e he).2⟩, ?_⟩
    simp only [DistinctKeys, List.pairwise_map]
    exact h1.2
  | hashSet k ih => exact ⟨h2.1, h2.2.1, fun e he => ih _ (h1.1 e he) (h2.2.2 e he), h1.2⟩
  | vector t ih => exact ⟨h2.1, h2.2.1, fun e he => ih _ (h1 e he) (h2.2.2 e he), trivial⟩
  | binaryHeap t ih =>
    exact ⟨h2.1, h2.2.1, fun e he => ih _ (h1.1 e he) (h2.2.2 e he), (heapShape_iff _ _).2 h1.2⟩
  | ext i => exact h1

theorem Ty.valid_of (cfg : Cfg) {E : Env ι} (hE : E.Lawful) (t : Ty ι) (v : t.denote E.X)
    (h1 : t.WF E v) (h2 : t.Fits E v) : (t.codec cfg E).valid v :=
  t.valid_of_mono cfg hE.cap_mono v h1 h2

theorem Ty.wf_of_valid (cfg : Cfg) {E : Env ι} (t : Ty ι) (v : t.denote E.X)
    (h : (t.codec cfg E).valid v) : t.WF E v := by
  induction t with
  | unit => trivial
  | bool => trivial
  | int k => trivial
  | float n => trivial
  | char => trivial
  | string => trivial
  | path =>
    obtain ⟨-, s, hs⟩ := h
    exact ⟨s, (strBytes_of_fromUtf8 hs).symm⟩
  | bytes => trivial
  | uuid => trivial
  | duration => exact h
  | systemTime => exact h
  | notNan f =>
    simp only [Ty.WF, ← isNaN_iff]
    simpa [Ty.codec, notNanC] using h
  | option t ih => rintro a rfl; exact ih a h
  | result t e iht ihe =>
    constructor
    · rintro a rfl; exact iht a h
    · rintro a rfl; exact ihe a h
  | bound t ih =>
    rintro a (rfl | rfl)
    · exact ih a h
    · exact ih a h
  | wrap t ih => exact ih v h
  | pair s t ihs iht => exact ⟨ihs _ h.1, iht _ h.2⟩
  | array n t ih => exact ⟨h.1, fun a ha => ih a (h.2 a ha)⟩
  | vec t ih => exact vecOf_valid_mem cfg t v ih rfl h
  | btreeMap k w ihk ihv =>
    refine ⟨fun e he => ⟨ihk _ (h.2.2.1 e he).1, ihv _ (h.2.2.1 e he).2⟩, ?_⟩
    have := h.2.2.2
    simp only [StrictAsc, List.pairwise_map] at this
    exact this
  | btreeSet k ih => exact ⟨fun e he => ih _ (h.2.2.1 e he), h.2.2.2⟩
  | hashMap k w ihk ihv =>
    refine ⟨fun e he => ⟨ihk _ (h.2.2.1 e he).1, ihv _ (h.2.2.1 e he).2⟩, ?_⟩
    have := h.2.2.2
    simp only [DistinctKeys, List.pairwise_map] at this
    exact this
  | hashSet k ih => exact ⟨fun e he => ih _ (h.2.2.1 e he), h.2.2.2⟩
  | vector t ih => exact fun e he => ih _ (h.2.2.1 e he)
  | binaryHeap t ih => exact ⟨fun e he => ih _ (h.2.2.1 e he), (heapShape_iff _ _).1 h.2.2.2⟩
  | ext i => exact h

end Revision
