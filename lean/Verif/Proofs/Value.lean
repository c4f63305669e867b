import Verif.Spec.Value
import Verif.Proofs.Ty
import Verif.Proofs.Indexed

/-! Helper lemmas: whatever is read is a value of its type. -/

namespace Revision

variable {ι : Type}

/-- The same types, where `G` says what the values of the further types are. -/
def Env.only (E : Env ι) (G : (i : ι) → E.X i → Prop) : Env ι := { E with extC := fun i => .only (G i) }

/-- The allocator refuses only what exceeds the address space. -/
def Env.Roomy (E : Env ι) : Prop := ∀ t k, E.cap t k = decide (k * t.elemBytes < 2 ^ 64)

theorem Env.Roomy.one {E : Env ι} (h : E.Roomy) {t : Ty ι} {k : Nat} (ht : t.elemBytes = 1) (hk : k < 2 ^ 64) :
    E.cap t k = true := by
  rw [h t k, ht]; simpa using hk

theorem Env.Roomy.mono {E : Env ι} (h : E.Roomy) (t : Ty ι) (m n : Nat) (hmn : m ≤ n) (hc : E.cap t n = true) :
    E.cap t m = true := by
  rw [h t] at hc ⊢
  simp only [decide_eq_true_eq] at hc ⊢
  exact Nat.lt_of_le_of_lt (Nat.mul_le_mul_right _ hmn) hc

theorem Env.Roomy.lt {E : Env ι} (h : E.Roomy) {t : Ty ι} {k : Nat} (hc : E.cap t k = true) :
    k * t.elemBytes < 2 ^ 64 := by
  rw [h t k] at hc
  simpa using hc

theorem elemBytes_pos (t : Ty ι) : 0 < t.elemBytes := by
  cases t <;> simp only [Ty.elemBytes, Nat.zero_lt_one, Nat.zero_lt_succ]
  case int k => cases k <;> decide
  case float f => cases f <;> decide

theorem length_lt_of_bytes {t : Ty ι} {n : Nat} (h : n * t.elemBytes < 2 ^ 64) : n < 2 ^ 64 :=
  Nat.lt_of_le_of_lt (Nat.le_mul_of_pos_right _ (elemBytes_pos t)) h

theorem collC_yields (cfg : Cfg) {cap : Nat → Bool} {c : Codec α} {inv : List α → Prop} {build : List α → List α}
    {P : α → Prop} (hc : c.dec.Yields P) : (collC cfg cap c inv build).dec.Yields
      (fun l => ∃ l0 : List α, l = build l0 ∧ l0.length < 2 ^ 64 ∧ cap l0.length = true ∧ ∀ a ∈ l0, P a) := by
  refine Rd.Yields.bind (readLen_yields cfg) fun n hn =>
    Rd.Yields.alloc_bind fun hcap => Rd.Yields.bind (Rd.Yields.readN hc n) ?_
  rintro l ⟨rfl, hl⟩
  exact Rd.Yields.pure ⟨l, rfl, hn, hcap, hl⟩

theorem vecC_yields (cfg : Cfg) {cap : Nat → Bool} {c : Codec α} {P : α → Prop} (hc : c.dec.Yields P) :
    (vecC cfg cap c).dec.Yields (fun l => (l = [] ∨ cap l.length = true) ∧ ∀ a ∈ l, P a) := by
  refine Rd.Yields.bind (readLen_yields cfg) fun n hn => Rd.Yields.ite
    (fun h0 => Rd.Yields.pure ⟨.inl rfl, by simp⟩) fun h0 =>
    Rd.Yields.alloc_bind fun hcap => (Rd.Yields.readN hc n).mono ?_
  rintro l ⟨rfl, hl⟩
  exact ⟨.inr hcap, hl⟩

theorem bulkC_yields (cfg : Cfg) {cap : Nat → Bool} {W w : Nat} : (bulkC cfg cap W w).dec.Yields
    (fun l => l = [] ∨ cap l.length = true) := by
  refine Rd.Yields.bind (readLen_yields cfg) fun n hn => Rd.Yields.ite
    (fun h0 => Rd.Yields.pure (.inl rfl)) fun h0 =>
    Rd.Yields.ite (fun hlt => Rd.Yields.alloc_bind fun hcap => Rd.Yields.bind_any fun b =>
      Rd.Yields.pure ?_) fun _ => Rd.Yields.fail _
  exact .inr (by simpa using hcap)

theorem boolsC_yields (cfg : Cfg) {cap : Nat → Bool} : (boolsC cfg cap).dec.Yields
    (fun l => l = [] ∨ cap l.length = true) := by
  refine Rd.Yields.bind (readLen_yields cfg) fun n hn => Rd.Yields.ite
    (fun h0 => Rd.Yields.pure (.inl rfl)) fun h0 =>
    Rd.Yields.alloc_bind fun hcap => Rd.Yields.bind (Rd.Yields.readExact _) fun b hb =>
      Rd.Yields.alloc_bind fun hcap2 => Rd.Yields.pure ?_
  have hlen := unpackBools_length b n hb.symm
  exact .inr (by rw [hlen]; exact hcap2)

theorem roomy_nil {E : Env ι} (h : E.Roomy) {t : Ty ι} {l : List α} (hl : l = [] ∨ E.cap t l.length = true) :
    E.cap t l.length = true := by
  rcases hl with rfl | hl
  · rw [h]; simp
  · exact hl

section
variable {E : Env ι} (G : (i : ι) → E.X i → Prop)

/-- A value of a type, in the proofs. -/
def Ty.Is (E : Env ι) (G : (i : ι) → E.X i → Prop) (t : Ty ι) (v : t.denote E.X) : Prop :=
  t.WF (E.only G) v ∧ t.Fits (E.only G) v

variable {G}

theorem vecOf_yields (cfg : Cfg) (hr : E.Roomy) (t : Ty ι) {c : Codec (t.denote E.X)}
    (hc : c.dec.Yields (t.Is E G)) : (vecOf cfg E t c).dec.Yields ((Ty.vec t).Is E G) := by
  have fin : ∀ l : List (t.denote E.X), E.cap t l.length = true → (∀ a ∈ l, t.Is E G a) → (Ty.vec t).Is E G l :=
    fun l h1 h2 => ⟨fun a ha => (h2 a ha).1, hr.lt h1, h1, fun a ha => (h2 a ha).2⟩
  have gen : (vecC cfg (E.cap t) c).dec.Yields ((Ty.vec t).Is E G) :=
    (vecC_yields cfg hc).mono fun l h => fin l (roomy_nil hr h.1) h.2
  cases t <;> simp only [vecOf] <;> try exact gen
  case bool =>
    split
    · exact (boolsC_yields cfg).mono fun l h => fin l (roomy_nil hr h) fun _ _ => ⟨trivial, trivial⟩
    · exact gen
  case int k =>
    split
    · exact (bulkC_yields cfg).mono fun l h => fin l (roomy_nil hr h) fun _ _ => ⟨trivial, trivial⟩
    · exact gen
  case float f =>
    split
    · exact (bulkC_yields cfg).mono fun l h => fin l (roomy_nil hr h) fun _ _ => ⟨trivial, trivial⟩
    · exact gen
  case uuid =>
    split
    · exact (bulkC_yields cfg).mono fun l h => fin l (roomy_nil hr h) fun _ _ => ⟨trivial, trivial⟩
    · exact gen

theorem bytesFit_cap (hr : E.Roomy) {b : Bytes} (h : bytesFit (E.cap (.int .u8)) b) :
    b.length < 2 ^ 64 ∧ E.cap (.int .u8) b.length = true :=
  ⟨h.1, hr.one rfl h.1⟩

theorem Ty.codec_yields (cfg : Cfg) (hr : E.Roomy) (htrans : ∀ t, Std.TransCmp (E.cmp t))
    (hx : ∀ i, (E.extC i).dec.Yields (G i)) (t : Ty ι) : (t.codec cfg E).dec.Yields (t.Is E G) := by
  induction t with
  | unit => exact fun _ _ _ _ => ⟨trivial, trivial⟩
  | bool => exact fun _ _ _ _ => ⟨trivial, trivial⟩
  | int k => exact fun _ _ _ _ => ⟨trivial, trivial⟩
  | float n => exact fun _ _ _ _ => ⟨trivial, trivial⟩
  | char => exact fun _ _ _ _ => ⟨trivial, trivial⟩
  | uuid => exact fun _ _ _ _ => ⟨trivial, trivial⟩
  | string =>
    refine (stringC_lawful cfg _).sound.mono fun s h => ⟨trivial, ?_⟩
    have := bytesFit_cap hr h
    simpa [Ty.Fits, strBytes, Env.only] using this
  | path =>
    refine (pathC_lawful cfg _).sound.mono fun p h => ?_
    obtain ⟨h, s, hs⟩ := h
    exact ⟨⟨s, (strBytes_of_fromUtf8 hs).symm⟩, bytesFit_cap hr h⟩
  | bytes => exact (bytesC_lawful cfg _).sound.mono fun p h => ⟨trivial, bytesFit_cap hr h⟩
  | duration => exact (durationC_lawful cfg).sound.mono fun p h => ⟨h, trivial⟩
  | systemTime => exact (systemTimeC_lawful cfg).sound.mono fun p h => ⟨h, trivial⟩
  | notNan f =>
    refine (notNanC_lawful _).sound.mono fun p h => ⟨?_, trivial⟩
    simp only [Ty.WF, ← isNaN_iff]
    simpa [Ty.codec, notNanC] using h
  | option t ih =>
    refine Rd.Yields.bind_any fun _ => Rd.Yields.ite (fun _ => Rd.Yields.pure ?_) fun _ =>
      Rd.Yields.ite (fun _ => Rd.Yields.bind ih fun a h => Rd.Yields.pure ?_) fun _ => Rd.Yields.fail _
    · exact ⟨(fun a h => nomatch h), (fun a h => nomatch h)⟩
    · exact ⟨fun b hb => by cases hb; exact h.1, fun b hb => by cases hb; exact h.2⟩
  | result t e iht ihe =>
    refine Rd.Yields.bind_any fun _ => Rd.Yields.ite
      (fun _ => Rd.Yields.bind iht.mapErr fun a h => Rd.Yields.pure ?_) fun _ =>
      Rd.Yields.ite (fun _ => Rd.Yields.bind ihe.mapErr fun a h => Rd.Yields.pure ?_) fun _ => Rd.Yields.fail _
    · exact ⟨⟨(fun b hb => by cases hb; exact h.1), (fun b hb => nomatch hb)⟩,
        ⟨(fun b hb => by cases hb; exact h.2), (fun b hb => nomatch hb)⟩⟩
    · exact ⟨⟨(fun b hb => nomatch hb), (fun b hb => by cases hb; exact h.1)⟩,
        ⟨(fun b hb => nomatch hb), (fun b hb => by cases hb; exact h.2)⟩⟩
  | bound t ih =>
    refine Rd.Yields.bind_any fun _ => Rd.Yields.ite (fun _ => Rd.Yields.pure ?_) fun _ =>
      Rd.Yields.ite (fun _ => Rd.Yields.bind ih.mapErr fun a h => Rd.Yields.pure ?_) fun _ =>
      Rd.Yields.ite (fun _ => Rd.Yields.bind ih.mapErr fun a h => Rd.Yields.pure ?_) fun _ => Rd.Yields.fail _
    · constructor <;> (intro a h; rcases h with h | h <;> cases h)
    · constructor <;> (intro b hb; rcases hb with hb | hb <;> cases hb)
      · exact h.1
      · exact h.2
    · constructor <;> (intro b hb; rcases hb with hb | hb <;> cases hb)
      · exact h.1
      · exact h.2
  | wrap t ih => exact ih
  | pair s t ihs iht =>
    exact Rd.Yields.bind ihs fun _ hx => Rd.Yields.bind iht fun _ hy =>
      Rd.Yields.pure ⟨⟨hx.1, hy.1⟩, hx.2, hy.2⟩
  | array n t ih =>
    exact (Rd.Yields.readN ih n).mono fun l h => ⟨⟨h.1, fun a ha => (h.2 a ha).1⟩, fun a ha => (h.2 a ha).2⟩
  | vec t ih => exact vecOf_yields cfg hr t ih
  | btreeMap k v ihk ihv =>
    have := htrans k
    have hp : (pairC (k.codec cfg E) (v.codec cfg E)).dec.Yields (fun p => k.Is E G p.1 ∧ v.Is E G p.2) :=
      Rd.Yields.bind ihk fun _ hx => Rd.Yields.bind ihv fun _ hy => Rd.Yields.pure ⟨hx, hy⟩
    refine (collC_yields cfg hp).mono ?_
    rintro l ⟨l0, rfl, hl, -, hm⟩
    have hlen := btreeBuild_length (E.cmp k) Prod.fst l0
    have hm' := fun e he => hm e (btreeBuild_mem (E.cmp k) Prod.fst he)
    have hst := btreeBuild_strict (E.cmp k) Prod.fst l0
    simp only [StrictAsc, List.pairwise_map] at hst
    exact ⟨⟨fun e he => ⟨(hm' e he).1.1, (hm' e he).2.1⟩, hst⟩, Nat.lt_of_le_of_lt hlen hl, hr.one rfl (Nat.lt_of_le_of_lt hlen hl),
      fun e he => ⟨(hm' e he).1.2, (hm' e he).2.2⟩⟩
  | btreeSet k ih =>
    have := htrans k
    refine (collC_yields cfg ih).mono ?_
    rintro l ⟨l0, rfl, hl, hc, hm⟩
    have hlen := btreeBuild_length (E.cmp k) id l0
    have hm' := fun e he => hm e (btreeBuild_mem (E.cmp k) id he)
    have hst := btreeBuild_strict (E.cmp k) id l0
    rw [List.map_id] at hst
    exact ⟨⟨fun e he => (hm' e he).1, hst⟩, Nat.lt_of_le_of_lt hlen hl, hr.mono _ _ _ hlen hc, fun e he => (hm' e he).2⟩
  | hashMap k v ihk ihv =>
    have hp : (pairC (k.codec cfg E) (v.codec cfg E)).dec.Yields (fun p => k.Is E G p.1 ∧ v.Is E G p.2) :=
      Rd.Yields.bind ihk fun _ hx => Rd.Yields.bind ihv fun _ hy => Rd.Yields.pure ⟨hx, hy⟩
    refine (collC_yields cfg hp).mono ?_
    rintro l ⟨l0, rfl, hl, -, hm⟩
    have hlen := hash_foldl_length (eq := E.eq k) l0 []
    rw [List.length_nil, Nat.zero_add] at hlen
    have hm' := hash_foldl_valid (eq := E.eq k) (P := k.Is E G) (Q := v.Is E G) l0 [] (fun _ h => nomatch h) hm
    have hst := hash_foldl_distinct (eq := E.eq k) l0 [] (by simp [DistinctKeys])
    simp only [DistinctKeys, List.pairwise_map] at hst
    exact ⟨⟨fun e he => ⟨(hm' e he).1.1, (hm' e he).2.1⟩, hst⟩, Nat.lt_of_le_of_lt hlen hl, hr.one rfl (Nat.lt_of_le_of_lt hlen hl),
      fun e he => ⟨(hm' e he).1.2, (hm' e he).2.2⟩⟩
  | hashSet k ih =>
    refine (collC_yields cfg ih).mono ?_
    rintro l ⟨l0, rfl, hl, hc, hm⟩
    have hlen := hashSet_foldl_length (eq := E.eq k) l0 []
    rw [List.length_nil, Nat.zero_add] at hlen
    have hm' : ∀ e ∈ l0.foldl (hashSetInsert (E.eq k)) [], k.Is E G e := fun e he =>
      (hashSet_foldl_mem l0 [] e he).elim (fun h => nomatch h) (hm e)
    have hst := hashSet_foldl_inv (eq := E.eq k) l0 [] (by simp [DistinctKeys])
    exact ⟨⟨fun e he => (hm' e he).1, hst⟩, Nat.lt_of_le_of_lt hlen hl, hr.mono _ _ _ hlen hc, fun e he => (hm' e he).2⟩
  | binaryHeap t ih =>
    have := htrans t
    refine (collC_yields cfg ih).mono ?_
    rintro l ⟨l0, rfl, hl, hc, hm⟩
    have hp := heap_foldl_perm (E.cmp t) l0 []
    rw [List.nil_append] at hp
    have hlen := hp.length_eq
    have hm' := fun e he => hm e (hp.mem_iff.1 he)
    exact ⟨⟨fun e he => (hm' e he).1, (heapShape_iff _ _).1 (heap_foldl_heap (E.cmp t) l0 [] (by intro i x p _ hx; simp at hx))⟩,
      Nat.lt_of_le_of_lt (Nat.le_of_eq hlen) hl, hr.mono _ _ _ (Nat.le_of_eq hlen) hc, fun e he => (hm' e he).2⟩
  | vector t ih =>
    refine (collC_yields cfg ih).mono ?_
    rintro l ⟨l0, rfl, hl, hc, hm⟩
    exact ⟨fun e he => (hm e he).1, hl, hc, fun e he => (hm e he).2⟩
  | ext i => exact (hx i).mono fun v h => ⟨h, trivial⟩

theorem fixedOf_yields (cfg : Cfg) (hr : E.Roomy) (htrans : ∀ t, Std.TransCmp (E.cmp t))
    (hx : ∀ i, (E.extC i).dec.Yields (G i)) (t : Ty ι) : (fixedOf cfg E t).dec.Yields (t.Is E G) := by
  have gen := Ty.codec_yields cfg hr htrans hx t
  cases t <;> first | exact gen | exact fun _ _ _ _ => ⟨trivial, trivial⟩

theorem bulkOf_yields (cfg : Cfg) (hr : E.Roomy) (htrans : ∀ t, Std.TransCmp (E.cmp t))
    (hx : ∀ i, (E.extC i).dec.Yields (G i)) (t : Ty ι) : (bulkOf cfg E t).dec.Yields (t.Is E G) := by
  cases t
  case vec t => exact vecOf_yields _ hr t (Ty.codec_yields cfg hr htrans hx t)
  all_goals exact Ty.codec_yields cfg hr htrans hx _

theorem readVarint_yields : readVarint.Yields (· < 2 ^ 64) := by
  have lt : ∀ (n : Nat), n ≤ 8 → (Rd.readExact n >>= fun b => (pure (leVal b) : Rd Nat)).Yields (· < 2 ^ 64) :=
    fun n hn => Rd.Yields.bind (Rd.Yields.readExact n) fun b hb => Rd.Yields.pure (by
      have h1 := leVal_lt b
      have h2 : 256 ^ b.length ≤ 256 ^ 8 := Nat.pow_le_pow_right (by decide) (by omega)
      have h3 : 256 ^ 8 = 2 ^ 64 := by decide
      omega)
  refine Rd.Yields.bind_any fun tag => Rd.Yields.ite (fun h => Rd.Yields.pure ?_) fun _ =>
    Rd.Yields.ite (fun _ => lt 2 (by decide)) fun _ => Rd.Yields.ite (fun _ => lt 4 (by decide)) fun _ =>
    Rd.Yields.ite (fun _ => lt 8 (by decide)) fun _ => Rd.Yields.fail _
  have := tag.toNat_lt
  omega

theorem readIndexedSeq_yields {cap : Nat → Bool} {m : Rd α} {P : α → Prop} (hm : m.Yields P) :
    (readIndexedSeq cap m).Yields (fun l => l.length < 2 ^ 64 ∧ cap l.length = true ∧ ∀ a ∈ l, P a) := by
  have fin : ∀ len, len < 2 ^ 64 → (Rd.alloc (cap len) >>= fun _ => Rd.readN len m).Yields
      (fun l => l.length < 2 ^ 64 ∧ cap l.length = true ∧ ∀ a ∈ l, P a) := fun len hn =>
    Rd.Yields.alloc_bind fun hcap => (Rd.Yields.readN hm len).mono (by
      rintro l ⟨rfl, hl⟩
      exact ⟨hn, hcap, hl⟩)
  exact Rd.Yields.bind_any fun _ => Rd.Yields.bind readVarint_yields fun len hn => Rd.Yields.ite (fun _ => fin len hn)
    fun _ => Rd.Yields.bind_any fun _ => Rd.Yields.bind_any fun _ => fin len hn

theorem readIndexedMap_yields {pre capK capV : Nat → Bool} {k : Rd κ} {v : Rd ν}
    {build : List (κ × ν) → List (κ × ν)} {P : κ → Prop} {Q : ν → Prop} (hk : k.Yields P) (hv : v.Yields Q) :
    (readIndexedMap pre capK capV k v build).Yields
      (fun l => ∃ l0 : List (κ × ν), l = build l0 ∧ l0.length < 2 ^ 64 ∧ ∀ e ∈ l0, P e.1 ∧ Q e.2) := by
  refine Rd.Yields.bind_any fun _ => Rd.Yields.bind readVarint_yields fun len hn => Rd.Yields.bind_any fun _ =>
    Rd.Yields.ite (fun _ => ?_) fun _ => Rd.Yields.bind_any fun _ => Rd.Yields.bind_any fun _ =>
    Rd.Yields.bind_any fun _ => Rd.Yields.bind_any fun _ => Rd.Yields.bind (Rd.Yields.readN hk len) fun ks hks =>
    Rd.Yields.bind_any fun _ => Rd.Yields.bind (Rd.Yields.readN hv len) fun vs hvs => Rd.Yields.pure ?_
  · have hp : (k >>= fun a => v >>= fun b => (pure (a, b) : Rd (κ × ν))).Yields (fun e => P e.1 ∧ Q e.2) :=
      Rd.Yields.bind hk fun _ h => Rd.Yields.bind hv fun _ h' => Rd.Yields.pure ⟨h, h'⟩
    refine Rd.Yields.bind (Rd.Yields.readN hp len) fun l hl => Rd.Yields.pure ⟨l, rfl, ?_, hl.2⟩
    rw [hl.1]; exact hn
  · refine ⟨ks.zip vs, rfl, ?_, fun e he => ?_⟩
    · rw [List.length_zip, hks.1, hvs.1, Nat.min_self]; exact hn
    · obtain ⟨a, b⟩ := e
      exact ⟨hks.2 _ (List.of_mem_zip he).1, hvs.2 _ (List.of_mem_zip he).2⟩

theorem btreeInsert_all {cmp : κ → κ → Ordering} {P : κ → Prop} {Q : ν → Prop} {p : κ × ν} (hp : P p.1 ∧ Q p.2) :
    ∀ {acc : List (κ × ν)}, (∀ e ∈ acc, P e.1 ∧ Q e.2) → ∀ e ∈ btreeInsert cmp acc p, P e.1 ∧ Q e.2 := by
  intro acc
  induction acc with
  | nil =>
    intro _ e he
    rw [btreeInsert, List.mem_singleton] at he
    exact he ▸ hp
  | cons x l ih =>
    intro h e he
    rw [btreeInsert] at he
    have hx := h x (List.mem_cons_self ..)
    have hl : ∀ e ∈ l, P e.1 ∧ Q e.2 := fun e he => h e (List.mem_cons_of_mem _ he)
    split at he
    · rcases List.mem_cons.1 he with rfl | he
      · exact hp
      · exact h e he
    · rcases List.mem_cons.1 he with rfl | he
      · exact ⟨hx.1, hp.2⟩
      · exact hl e he
    · rcases List.mem_cons.1 he with rfl | he
      · exact hx
      · exact ih hl e he

theorem btreeInsert_length_le {cmp : κ → κ → Ordering} (p : κ × ν) (acc : List (κ × ν)) :
    (btreeInsert cmp acc p).length ≤ acc.length + 1 := by
  induction acc with
  | nil => simp [btreeInsert]
  | cons x l ih =>
    rw [btreeInsert]
    split <;> simp only [List.length_cons] <;> omega

theorem btree_foldl_length {cmp : κ → κ → Ordering} (l : List (κ × ν)) : ∀ acc : List (κ × ν),
    (l.foldl (btreeInsert cmp) acc).length ≤ acc.length + l.length := by
  induction l with
  | nil => intro acc; exact Nat.le_refl _
  | cons p l ih =>
    intro acc
    have h1 := ih (btreeInsert cmp acc p)
    have h2 := btreeInsert_length_le (cmp := cmp) p acc
    simp only [List.foldl_cons, List.length_cons]
    omega

theorem btree_foldl_mem {cmp : κ → κ → Ordering} (P : κ → Prop) (Q : ν → Prop) (l : List (κ × ν)) :
    ∀ acc : List (κ × ν), (∀ e ∈ acc, P e.1 ∧ Q e.2) → (∀ e ∈ l, P e.1 ∧ Q e.2) →
      ∀ e ∈ l.foldl (btreeInsert cmp) acc, P e.1 ∧ Q e.2 := by
  induction l with
  | nil => intro acc h _; exact h
  | cons p l ih =>
    intro acc h hl
    refine ih _ (fun e he => ?_) fun e he => hl e (List.mem_cons_of_mem _ he)
    exact btreeInsert_all (hl p (List.mem_cons_self ..)) h e he

theorem indexedOf_yields (cfg : Cfg) (hr : E.Roomy) (htrans : ∀ t, Std.TransCmp (E.cmp t))
    (hx : ∀ i, (E.extC i).dec.Yields (G i)) (t : Ty ι) : (indexedOf cfg E t).dec.Yields (t.Is E G) := by
  have gen := Ty.codec_yields cfg hr htrans hx
  cases t
  case vec t =>
    exact (readIndexedSeq_yields (gen t)).mono fun l h =>
      ⟨fun e he => (h.2.2 e he).1, hr.lt h.2.1, h.2.1, fun e he => (h.2.2 e he).2⟩
  case vector t =>
    exact (readIndexedSeq_yields (gen t)).mono fun l h =>
      ⟨fun e he => (h.2.2 e he).1, h.1, h.2.1, fun e he => (h.2.2 e he).2⟩
  case btreeSet k =>
    have := htrans k
    refine Rd.Yields.bind (readIndexedSeq_yields (gen k)) fun l0 h => Rd.Yields.pure ?_
    obtain ⟨hl, hc, hm⟩ := h
    have hlen := btreeBuild_length (E.cmp k) id l0
    have hm' := fun e he => hm e (btreeBuild_mem (E.cmp k) id he)
    have hst := btreeBuild_strict (E.cmp k) id l0
    rw [List.map_id] at hst
    exact ⟨⟨fun e he => (hm' e he).1, hst⟩, Nat.lt_of_le_of_lt hlen hl, hr.mono _ _ _ hlen hc,
      fun e he => (hm' e he).2⟩
  case hashSet k =>
    refine Rd.Yields.bind (readIndexedSeq_yields (gen k)) fun l0 h => Rd.Yields.pure ?_
    obtain ⟨hl, hc, hm⟩ := h
    have hlen := hashSet_foldl_length (eq := E.eq k) l0 []
    rw [List.length_nil, Nat.zero_add] at hlen
    have hm' : ∀ e ∈ l0.foldl (hashSetInsert (E.eq k)) [], k.Is E G e := fun e he =>
      (hashSet_foldl_mem l0 [] e he).elim (fun h => nomatch h) (hm e)
    have hst := hashSet_foldl_inv (eq := E.eq k) l0 [] (by simp [DistinctKeys])
    exact ⟨⟨fun e he => (hm' e he).1, hst⟩, Nat.lt_of_le_of_lt hlen hl, hr.mono _ _ _ hlen hc,
      fun e he => (hm' e he).2⟩
  case btreeMap k v =>
    have := htrans k
    refine (readIndexedMap_yields (gen k) (gen v)).mono ?_
    rintro l ⟨l0, rfl, hl, hm⟩
    have hlen := btree_foldl_length (cmp := E.cmp k) l0 []
    rw [List.length_nil, Nat.zero_add] at hlen
    have hm' := btree_foldl_mem (cmp := E.cmp k) (k.Is E G) (v.Is E G) l0 [] (fun _ h => nomatch h) hm
    have hst := btree_foldl_strict (cmp := E.cmp k) l0 [] (by simp [StrictAsc])
    simp only [StrictAsc, List.pairwise_map] at hst
    exact ⟨⟨fun e he => ⟨(hm' e he).1.1, (hm' e he).2.1⟩, hst⟩, Nat.lt_of_le_of_lt hlen hl,
      hr.one rfl (Nat.lt_of_le_of_lt hlen hl), fun e he => ⟨(hm' e he).1.2, (hm' e he).2.2⟩⟩
  case hashMap k v =>
    refine (readIndexedMap_yields (gen k) (gen v)).mono ?_
    rintro l ⟨l0, rfl, hl, hm⟩
    have hlen := hash_foldl_length (eq := E.eq k) l0 []
    rw [List.length_nil, Nat.zero_add] at hlen
    have hm' := hash_foldl_valid (eq := E.eq k) (P := k.Is E G) (Q := v.Is E G) l0 [] (fun _ h => nomatch h) hm
    have hst := hash_foldl_distinct (eq := E.eq k) l0 [] (by simp [DistinctKeys])
    simp only [DistinctKeys, List.pairwise_map] at hst
    exact ⟨⟨fun e he => ⟨(hm' e he).1.1, (hm' e he).2.1⟩, hst⟩, Nat.lt_of_le_of_lt hlen hl,
      hr.one rfl (Nat.lt_of_le_of_lt hlen hl), fun e he => ⟨(hm' e he).1.2, (hm' e he).2.2⟩⟩
  all_goals exact gen _

end

end Revision
