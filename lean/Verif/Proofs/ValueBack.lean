import Verif.Proofs.ValueProgram
import Verif.Proofs.WireField

/-! Helper lemmas: values that are written are valid. -/

namespace Revision

theorem encList_mem {α : Type} {f : α → Res Bytes} : ∀ {l : List α} {b : Bytes}, encList f l = .ok b →
    ∀ a ∈ l, ∃ x, f a = .ok x
  | [], _, _, _, ha => nomatch ha
  | c :: l, b, h, a, ha => by
    obtain ⟨x, y, h1, h2, _⟩ := encList_cons h
    rcases List.mem_cons.1 ha with rfl | ha
    · exact ⟨x, h1⟩
    · exact encList_mem h2 a ha

theorem encEach_all {f : α → Res β} : ∀ {l : List α} {bs : List β}, encEach f l = .ok bs →
    ∀ a ∈ l, ∃ x ∈ bs, f a = .ok x
  | [], _, _, _, ha => nomatch ha
  | c :: l, b, h, a, ha => by
    obtain ⟨x, y, rfl, h1, h2⟩ := encEach_cons.1 h
    rcases List.mem_cons.1 ha with rfl | ha
    · exact ⟨x, List.mem_cons_self, h1⟩
    · obtain ⟨z, hz, h⟩ := encEach_all h2 a ha
      exact ⟨z, List.mem_cons_of_mem _ hz, h⟩

section
variable {ι : Type} {E : Env ι} {G : (i : ι) → E.X i → Prop}

theorem vecC_enc_mem {cfg : Cfg} {cap : Nat → Bool} {c : Codec α} {l : List α} {b : Bytes}
    (h : (vecC cfg cap c).enc l = .ok b) : ∀ a ∈ l, ∃ x, c.enc a = .ok x := by
  obtain ⟨x, h1, _⟩ := Res.bind_eq_ok.1 h
  exact encList_mem h1

theorem collC_enc_mem {cfg : Cfg} {cap : Nat → Bool} {c : Codec α} {inv build} {l : List α} {b : Bytes}
    (h : (collC cfg cap c inv build).enc l = .ok b) : ∀ a ∈ l, ∃ x, c.enc a = .ok x := by
  obtain ⟨x, h1, _⟩ := Res.bind_eq_ok.1 h
  exact encList_mem h1

theorem pairC_enc_ok {c : Codec α} {d : Codec β} {p : α × β} {b : Bytes} (h : (pairC c d).enc p = .ok b) :
    (∃ x, c.enc p.1 = .ok x) ∧ ∃ y, d.enc p.2 = .ok y := by
  obtain ⟨x, h1, h⟩ := Res.bind_eq_ok.1 h
  obtain ⟨y, h2, _⟩ := Res.bind_eq_ok.1 h
  exact ⟨⟨x, h1⟩, y, h2⟩

theorem vecOf_wf_back {cfg : Cfg} (t : Ty ι) {c : Codec (t.denote E.X)}
    (hc : ∀ a b, t.WF (E.only G) a → c.enc a = .ok b → t.WF E a) (l : List (t.denote E.X)) (b : Bytes)
    (hl : (Ty.vec t).WF (E.only G) l) (hb : (vecOf cfg E t c).enc l = .ok b) : (Ty.vec t).WF E l := by
  have key : (vecC cfg (E.cap t) c).enc l = .ok b → (Ty.vec t).WF E l := fun h a ha => by
    obtain ⟨x, hx⟩ := vecC_enc_mem h a ha
    exact hc a x (hl a ha) hx
  cases t <;> first
    | exact key hb
    | exact fun _ _ => trivial

/-- The invariants of a value that is written hold of the types as implemented. -/
theorem Ty.wf_back (cfg : Cfg) (hx : ∀ i x b, G i x → (E.extC i).enc x = .ok b → (E.extC i).valid x) (t : Ty ι) :
    ∀ v b, t.WF (E.only G) v → (t.codec cfg E).enc v = .ok b → t.WF E v := by
  induction t with
  | unit | bool | int | float | char | string | bytes | uuid | path | duration | systemTime | notNan =>
    exact fun v b h _ => h
  | option t ih =>
    intro v b h hb a ha
    subst ha
    obtain ⟨x, h1, _⟩ := Res.bind_eq_ok.1 hb
    exact ih a x (h a rfl) h1
  | result t e iht ihe =>
    intro v b h hb
    constructor
    · intro a ha
      subst ha
      obtain ⟨x, h1, _⟩ := Res.bind_eq_ok.1 hb
      exact iht a x (h.1 a rfl) h1
    · intro a ha
      subst ha
      obtain ⟨x, h1, _⟩ := Res.bind_eq_ok.1 hb
      exact ihe a x (h.2 a rfl) h1
  | bound t ih =>
    intro v b h hb a ha
    have h' := h a ha
    rcases ha with rfl | rfl <;>
    · obtain ⟨x, h1, _⟩ := Res.bind_eq_ok.1 hb
      exact ih a x h' h1
  | wrap t ih => exact ih
  | pair s t ihs iht =>
    intro v b h hb
    obtain ⟨⟨x, h1⟩, y, h2⟩ := pairC_enc_ok hb
    exact ⟨ihs _ x h.1 h1, iht _ y h.2 h2⟩
  | array n t ih =>
    intro l b h hb
    refine ⟨h.1, fun a ha => ?_⟩
    obtain ⟨x, hx⟩ := encList_mem hb a ha
    exact ih a x (h.2 a ha) hx
  | vec t ih => exact fun l b h hb => vecOf_wf_back t ih l b h hb
  | vector t ih =>
    intro l b h hb a ha
    obtain ⟨x, hx⟩ := collC_enc_mem hb a ha
    exact ih a x (h a ha) hx
  | btreeMap k v ihk ihv | hashMap k v ihk ihv =>
    intro l b h hb
    refine ⟨fun e he => ?_, h.2⟩
    obtain ⟨z, hz⟩ := collC_enc_mem hb e he
    obtain ⟨⟨x, h1⟩, y, h2⟩ := pairC_enc_ok hz
    exact ⟨ihk _ x (h.1 e he).1 h1, ihv _ y (h.1 e he).2 h2⟩
  | btreeSet t ih | hashSet t ih | binaryHeap t ih =>
    intro l b h hb
    refine ⟨fun e he => ?_, h.2⟩
    obtain ⟨x, hx⟩ := collC_enc_mem hb e he
    exact ih e x (h.1 e he) hx
  | ext i => exact fun v b h hb => hx i v b h hb

theorem Ty.fits_only (t : Ty ι) : ∀ v, t.Fits (E.only G) v → t.Fits E v := by
  induction t with
  | option t ih => exact fun v h a ha => ih a (h a ha)
  | result t e iht ihe => exact fun v h => ⟨fun a ha => iht a (h.1 a ha), fun a ha => ihe a (h.2 a ha)⟩
  | bound t ih => exact fun v h a ha => ih a (h a ha)
  | wrap t ih => exact ih
  | pair s t ihs iht => exact fun v h => ⟨ihs _ h.1, iht _ h.2⟩
  | array n t ih => exact fun l h a ha => ih a (h a ha)
  | vec t ih | vector t ih | btreeSet t ih | hashSet t ih | binaryHeap t ih =>
    exact fun l h => ⟨h.1, h.2.1, fun a ha => ih a (h.2.2 a ha)⟩
  | btreeMap k v ihk ihv | hashMap k v ihk ihv =>
    exact fun l h => ⟨h.1, h.2.1, fun e he => ⟨ihk _ (h.2.2 e he).1, ihv _ (h.2.2 e he).2⟩⟩
  | _ => exact fun v h => h

theorem Ty.valid_back (cfg : Cfg) (hr : E.Roomy)
    (hx : ∀ i x b, G i x → (E.extC i).enc x = .ok b → (E.extC i).valid x) (t : Ty ι) (v : t.denote E.X) (b : Bytes)
    (h : t.Is E G v) (hb : (t.codec cfg E).enc v = .ok b) : (t.codec cfg E).valid v :=
  t.valid_of_mono cfg hr.mono v (t.wf_back cfg hx v b h.1 hb) (Ty.fits_only t v h.2)

theorem fixedOf_valid_back (cfg : Cfg) (hr : E.Roomy)
    (hx : ∀ i x b, G i x → (E.extC i).enc x = .ok b → (E.extC i).valid x) (t : Ty ι) (v : t.denote E.X) (b : Bytes)
    (h : t.Is E G v) (hb : (fixedOf cfg E t).enc v = .ok b) : (fixedOf cfg E t).valid v := by
  cases t <;> first
    | exact Ty.valid_back cfg hr hx _ v b h hb
    | (rename_i k; cases k <;> trivial)

theorem bulkOf_valid_back (cfg : Cfg) (hr : E.Roomy)
    (hx : ∀ i x b, G i x → (E.extC i).enc x = .ok b → (E.extC i).valid x) (t : Ty ι) (v : t.denote E.X) (b : Bytes)
    (h : t.Is E G v) (hb : (bulkOf cfg E t).enc v = .ok b) : (bulkOf cfg E t).valid v := by
  cases t
  case vec t =>
    have hw := vecOf_wf_back t (t.wf_back cfg hx) v b h.1 hb
    refine vecOf_valid_of _ hr.mono t v h.2.1 h.2.2.1 fun a ha => ?_
    exact t.valid_of_mono cfg hr.mono a (hw a ha) (Ty.fits_only t a (h.2.2.2 a ha))
  all_goals exact Ty.valid_back cfg hr hx _ v b h hb

theorem writeSeqBodies_length {bs : List Bytes} {b : Bytes} (h : writeSeqBodies bs = .ok b) (hb : b.length < 2 ^ 32) :
    bs.length < 2 ^ 32 := by
  rcases writeSeqBodies_ok h with ⟨h1, _⟩ | ⟨_, os, last, h1, rfl⟩
  · omega
  · have := seqOffsets_length h1
    simp only [List.length_cons, List.length_append, tbl_length] at hb
    omega

theorem writeMapPairs_length {ps : List (Bytes × Bytes)} {b : Bytes} (h : writeMapPairs ps = .ok b)
    (hb : b.length < 2 ^ 32) : ps.length < 2 ^ 32 ∧ ∀ p ∈ ps, p.1.length < 2 ^ 32 ∧ p.2.length < 2 ^ 32 := by
  rcases writeMapPairs_ok h with ⟨h1, rfl⟩ | ⟨_, os, kl, vl, h1, rfl⟩
  · refine ⟨by omega, fun p hp => ?_⟩
    have := mem_flatten_length (List.mem_map_of_mem (f := fun p : Bytes × Bytes => p.1 ++ p.2) hp)
    simp only [List.length_cons, List.length_append] at hb this
    omega
  · have := mapOffsets_length h1
    simp only [List.length_cons, List.length_append, pairTable_length] at hb
    refine ⟨by omega, fun p hp => ?_⟩
    have h2 := mem_flatten_length (List.mem_map_of_mem (f := Prod.fst) hp)
    have h3 := mem_flatten_length (List.mem_map_of_mem (f := Prod.snd) hp)
    omega

theorem Env.Roomy.small {E : Env ι} (hr : E.Roomy) (t : Ty ι) {k : Nat} (hk : k < 2 ^ 32) : E.cap t k = true := by
  have h : t.elemBytes ≤ 16 := by
    cases t <;> simp only [Ty.elemBytes] <;> first | omega | skip
    case int k => cases k <;> decide
    case float f => cases f <;> decide
  rw [hr t k, decide_eq_true_eq]
  have := Nat.mul_le_mul (Nat.le_of_lt hk) h
  omega

theorem encEach_small {f : α → Res Bytes} {l : List α} {bs : List Bytes} (h : encEach f l = .ok bs)
    (hs : ∀ b ∈ bs, b.length < 2 ^ 32) : SmallEach f l := by
  intro a ha b hb
  obtain ⟨x, hx, h1⟩ := encEach_all h a ha
  rw [hb] at h1
  cases h1
  exact hs _ hx

theorem indexedOf_valid_back (cfg : Cfg) (hr : E.Roomy)
    (hx : ∀ i x b, G i x → (E.extC i).enc x = .ok b → (E.extC i).valid x) (t : Ty ι) (hh : t.isHash = false)
    (v : t.denote E.X) (b : Bytes) (h : t.Is E G v) (hb : (indexedOf cfg E t).enc v = .ok b)
    (hs : b.length < 2 ^ 32) : (indexedOf cfg E t).valid v := by
  cases t
  case vec t | vector t =>
    obtain ⟨bs, h1, h2⟩ := Res.bind_eq_ok.1 hb
    have hl := encEach_length h1
    have hbs := writeSeqBodies_length h2 hs
    have hfl := writeSeqBodies_flatten h2
    rw [hl] at hbs
    refine ⟨by omega, hr.small _ hbs, fun a ha => ?_, encEach_small h1 fun c hc => ?_⟩
    · obtain ⟨x, _, hx'⟩ := encEach_all h1 a ha
      exact t.valid_back cfg hr hx a x ⟨h.1 a ha, h.2.2.2 a ha⟩ hx'
    · have := mem_flatten_length hc; omega
  case btreeSet t =>
    obtain ⟨bs, h1, h2⟩ := Res.bind_eq_ok.1 hb
    have hl := encEach_length h1
    have hbs := writeSeqBodies_length h2 hs
    have hfl := writeSeqBodies_flatten h2
    rw [List.length_mergeSort, hl] at hbs
    refine ⟨by omega, hr.small _ hbs, fun a ha => ?_, encEach_small h1 fun c hc => ?_, h.1.2⟩
    · obtain ⟨x, _, hx'⟩ := encEach_all h1 a ha
      exact t.valid_back cfg hr hx a x ⟨h.1.1 a ha, h.2.2.2 a ha⟩ hx'
    · have := mem_flatten_length ((List.mergeSort_perm bs fun a b => (cmpBytes a b).isLE).mem_iff.2 hc); omega
  case btreeMap k v' =>
    obtain ⟨ps, h1, h2⟩ := Res.bind_eq_ok.1 hb
    have hl := encEach_length h1
    obtain ⟨hbs, hsm⟩ := writeMapPairs_length h2 hs
    rw [List.length_mergeSort, hl] at hbs
    have each : ∀ e ∈ v, ∃ p ∈ ps, (k.codec cfg E).enc e.1 = .ok p.1 ∧ (v'.codec cfg E).enc e.2 = .ok p.2 := by
      intro e he
      obtain ⟨p, hp, h3⟩ := encEach_all h1 e he
      exact ⟨p, hp, encPair_ok.1 h3⟩
    refine ⟨by omega, hr.small _ hbs, hr.small _ hbs, fun e he => ?_, fun e he => ?_, ?_⟩
    · obtain ⟨p, _, h3, h4⟩ := each e he
      exact ⟨k.valid_back cfg hr hx e.1 _ ⟨(h.1.1 e he).1, (h.2.2.2 e he).1⟩ h3,
        v'.valid_back cfg hr hx e.2 _ ⟨(h.1.1 e he).2, (h.2.2.2 e he).2⟩ h4⟩
    · obtain ⟨p, hp, h3, h4⟩ := each e he
      have := hsm p ((List.mergeSort_perm ps _).mem_iff.2 hp)
      constructor
      · intro x hx'; rw [h3] at hx'; cases hx'; exact this.1
      · intro x hx'; rw [h4] at hx'; cases hx'; exact this.2
    · have := h.1.2
      simp only [StrictAsc, List.pairwise_map]
      exact this
  case hashMap => cases hh
  case hashSet => cases hh
  all_goals exact Ty.valid_back cfg hr hx _ v b h hb

end

end Revision
