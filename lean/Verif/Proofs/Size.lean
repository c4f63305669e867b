import Verif.Spec.Size
import Verif.Proofs.Write
import Verif.Proofs.Ints

/-! Helper lemmas: the size of serialised values. -/

namespace Revision

/-- At most `w` bytes come out. -/
def Gives (w : Nat) (r : Res Bytes) : Prop := ∃ b, r = .ok b ∧ b.length ≤ w

/-- Small enough, if there is a limit. -/
def Small (lim : Bool) (w : Nat) : Prop := lim = true → w < 2 ^ 32

theorem Small.mono {lim : Bool} {a b : Nat} (h : Small lim b) (hab : a ≤ b) : Small lim a :=
  fun h' => Nat.lt_of_le_of_lt hab (h h')

theorem Gives.ok {w : Nat} {b : Bytes} (h : b.length ≤ w) : Gives w (.ok b) := ⟨b, rfl, h⟩

theorem Gives.mono {v w : Nat} {r : Res Bytes} (h : Gives v r) (hvw : v ≤ w) : Gives w r := by
  obtain ⟨b, h1, h2⟩ := h
  exact ⟨b, h1, Nat.le_trans h2 hvw⟩

theorem Gives.bind {v w : Nat} {r : Res Bytes} {f : Bytes → Res Bytes} (h : Gives v r)
    (hf : ∀ b, b.length ≤ v → Gives w (f b)) : Gives w (r >>= f) := by
  obtain ⟨b, rfl, h2⟩ := h
  exact hf b h2

theorem encList_gives {f : α → Res Bytes} {w : α → Nat} : ∀ {l : List α}, (∀ a ∈ l, Gives (w a) (f a)) →
    Gives (l.map w).sum (encList f l)
  | [], _ => .ok (Nat.le_refl _)
  | _ :: _, h => .bind (h _ (.head _)) fun _ h1 => .bind (encList_gives fun a ha => h a (.tail _ ha)) fun _ h2 =>
      .ok (by simp only [List.length_append, List.map_cons, List.sum_cons]; omega)

theorem le_sum {w : α → Nat} {l : List α} {a : α} (h : a ∈ l) : w a ≤ (l.map w).sum := by
  induction l with
  | nil => cases h
  | cons b l ih =>
    rw [List.map_cons, List.sum_cons]
    rcases List.mem_cons.1 h with rfl | h
    · omega
    · have := ih h; omega

theorem sum_le_sum {v w : α → Nat} {l : List α} (h : ∀ a ∈ l, v a ≤ w a) : (l.map v).sum ≤ (l.map w).sum := by
  induction l with
  | nil => exact Nat.le_refl _
  | cons b l ih =>
    rw [List.map_cons, List.sum_cons, List.map_cons, List.sum_cons]
    have := h b (.head _)
    have := ih fun a ha => h a (.tail _ ha)
    omega

theorem varintSize_le {n w : Nat} (hw : w = 16 ∨ w = 32 ∨ w = 64 ∨ w = 128) (h : n < 2 ^ w) :
    varintSize n ≤ w / 8 + 1 := by
  unfold varintSize
  rcases hw with rfl | rfl | rfl | rfl <;> (repeat' split) <;> omega

theorem encInt_most (cfg : Cfg) (k : IntTy) (v : BitVec k.bits) : (encInt cfg k v).length ≤ k.most := by
  cases k <;> simp only [encInt, IntTy.most, IntTy.bits] at v ⊢ <;> try (simp; done)
  case u16 =>
    split
    · simp
    · rw [encodeU64_length]; exact varintSize_le (w := 16) (by simp) (by have := v.isLt; simp; omega)
  case u32 =>
    split
    · simp
    · rw [encodeU64_length]; exact varintSize_le (w := 32) (by simp) (by have := v.isLt; simp; omega)
  case i16 =>
    split
    · simp
    · rw [encodeU64_length]; exact varintSize_le (w := 16) (by simp) (zigzag_signExtend_lt (by decide) (by decide) v)
  case i32 =>
    split
    · simp
    · rw [encodeU64_length]; exact varintSize_le (w := 32) (by simp) (zigzag_signExtend_lt (by decide) (by decide) v)
  all_goals
    split
    · simp
    · first
        | (rw [encodeU64_length]; exact varintSize_le (w := 64) (by simp) (BitVec.isLt _))
        | (rw [encodeU128_length]; exact varintSize_le (w := 128) (by simp) (BitVec.isLt _))

theorem encLen_most (cfg : Cfg) (n : Nat) : (encLen cfg n).length ≤ 9 := encInt_most cfg .usize _

theorem counted_most (cfg : Cfg) (n : Nat) {b : Bytes} {w : Nat} (h : b.length ≤ w) :
    Gives (9 + w) (.ok (encLen cfg n ++ b)) :=
  .ok (by have := encLen_most cfg n; rw [List.length_append]; omega)

theorem encU32_most (cfg : Cfg) (n : Nat) : (encU32 cfg n).length ≤ 5 := encInt_most cfg .u32 _

theorem encU16_most (cfg : Cfg) (n : Nat) : (encU16 cfg n).length ≤ 3 := encInt_most cfg .u16 _

theorem writeVarint_most (n : Nat) : (writeVarint n).length ≤ 9 := by
  unfold writeVarint
  repeat' split
  all_goals simp

theorem sum_const (l : List α) (w : Nat) : (l.map fun _ => w).sum = l.length * w := by
  induction l with
  | nil => simp
  | cons a l ih => rw [List.map_cons, List.sum_cons, ih, List.length_cons, Nat.succ_mul]; omega

theorem flatMap_length_const {f : α → List β} {w : Nat} (h : ∀ a, (f a).length = w) (l : List α) :
    (l.flatMap f).length = (l.map fun _ => w).sum := by
  induction l with
  | nil => rfl
  | cons a l ih => simp [h, ih]

section
variable {ι : Type} {E : Env ι} {G : (i : ι) → E.X i → Prop} {S : (i : ι) → E.X i → Nat} {lim : Bool}

theorem vecOf_gives {cfg : Cfg} (t : Ty ι) {c : Codec (t.denote E.X)} (l : List (t.denote E.X))
    (h : ∀ a ∈ l, Gives (t.most S a) (c.enc a)) : Gives ((Ty.vec t).most S l) ((vecOf cfg E t c).enc l) := by
  have key : Gives ((Ty.vec t).most S l) ((vecC cfg (E.cap t) c).enc l) := .bind (encList_gives h) fun b hb =>
    counted_most cfg _ hb
  have bulk : ∀ (W w : Nat) (l : List (BitVec W)) (m : Nat), w ≤ m →
      Gives (9 + (l.map fun _ => m).sum) ((bulkC cfg (E.cap t) W w).enc l) := by
    intro W w l m hm
    refine .ok ?_
    have := encLen_most cfg l.length
    rw [List.length_append, flatMap_length_const (w := w) (fun _ => leBytes_length _ _)]
    have := sum_le_sum (l := l) (v := fun _ => w) (w := fun _ => m) fun _ _ => hm
    omega
  cases t with
  | bool =>
    simp only [vecOf]
    split
    · refine counted_most cfg _ ?_
      rw [packBools_length]
      refine Nat.le_trans ?_ (Nat.le_of_eq (sum_const l 1).symm)
      unfold divCeil8
      omega
    · exact key
  | int k =>
    simp only [vecOf]
    split
    · exact bulk _ _ l _ (by cases k <;> decide)
    · exact key
  | float f =>
    simp only [vecOf]
    split
    · exact bulk _ _ l _ (Nat.le_refl _)
    · exact key
  | uuid =>
    simp only [vecOf]
    split
    · exact bulk _ _ l _ (Nat.le_refl _)
    · exact key
  | _ => exact key

theorem Ty.gives (cfg : Cfg) (hx : ∀ i x, G i x → Small lim (S i x) → Gives (S i x) ((E.extC i).enc x)) (t : Ty ι) :
    ∀ v, t.WF (E.only G) v → Small lim (t.most S v) → Gives (t.most S v) ((t.codec cfg E).enc v) := by
  have h32 := encU32_most cfg
  induction t with
  | unit => exact fun _ _ _ => .ok (Nat.le_refl _)
  | bool => exact fun _ _ _ => .ok (Nat.le_refl _)
  | int k => exact fun v _ _ => .ok (encInt_most cfg k v)
  | float f => exact fun v _ _ => .ok (by simp [Ty.most])
  | notNan f => exact fun v _ _ => .ok (by simp [Ty.most])
  | uuid => exact fun v _ _ => .ok (by simp [Ty.most])
  | char => exact fun c _ _ => .ok (by rw [String.length_utf8EncodeChar]; exact Char.utf8Size_le_four c)
  | string => exact fun s _ _ => counted_most cfg _ (Nat.le_of_eq (by simp [strBytes]))
  | bytes => exact fun p _ _ => counted_most cfg _ (Nat.le_refl _)
  | path =>
    rintro v ⟨s, rfl⟩ _
    show Gives _ (match fromUtf8 (strBytes s) with | .ok _ => _ | _ => _)
    rw [fromUtf8_strBytes]
    exact counted_most cfg _ (Nat.le_refl _)
  | duration => exact fun d _ _ => .ok (by
      have h1 : _ ≤ 9 := encInt_most cfg .u64 d.1
      have h2 : _ ≤ 5 := encInt_most cfg .u32 d.2
      simp only [List.length_append, Ty.most]; omega)
  | systemTime =>
    intro d hd _
    show Gives _ (if _ then _ else _)
    rw [if_neg (by have := hd.1; omega)]
    exact .ok (by
      have h1 : _ ≤ 9 := encInt_most cfg .u64 d.1
      have h2 : _ ≤ 5 := encInt_most cfg .u32 d.2
      simp only [List.length_append, Ty.most]; omega)
  | option t ih =>
    intro v hv hs
    have h8 : ∀ x, (encInt cfg .u8 x).length ≤ 1 := encInt_most cfg .u8
    cases v with
    | none => exact .ok (h8 _)
    | some a =>
      refine .bind (ih a (hv a rfl) (hs.mono (Nat.le_add_left _ _))) fun b hb => .ok ?_
      have := h8 1
      simp only [List.length_append, Ty.most]; omega
  | result t e iht ihe =>
    intro v hv hs
    cases v with
    | ok a =>
      refine .bind (iht a (hv.1 a rfl) (hs.mono (Nat.le_add_left _ _))) fun b hb => .ok ?_
      have := h32 0
      simp only [List.length_append, Ty.most]; omega
    | error a =>
      refine .bind (ihe a (hv.2 a rfl) (hs.mono (Nat.le_add_left _ _))) fun b hb => .ok ?_
      have := h32 1
      simp only [List.length_append, Ty.most]; omega
  | bound t ih =>
    intro v hv hs
    cases v with
    | unbounded => exact .ok (h32 0)
    | included a =>
      refine .bind (ih a (hv a (.inl rfl)) (hs.mono (Nat.le_add_left _ _))) fun b hb => .ok ?_
      have := h32 1
      simp only [List.length_append, Ty.most]; omega
    | excluded a =>
      refine .bind (ih a (hv a (.inr rfl)) (hs.mono (Nat.le_add_left _ _))) fun b hb => .ok ?_
      have := h32 2
      simp only [List.length_append, Ty.most]; omega
  | wrap t ih => exact ih
  | pair s t ihs iht =>
    exact fun v hv hs => .bind (ihs _ hv.1 (hs.mono (Nat.le_add_right _ _))) fun b hb =>
      .bind (iht _ hv.2 (hs.mono (Nat.le_add_left _ _))) fun b' hb' => .ok (by
        simp only [List.length_append, Ty.most]; omega)
  | array n t ih => exact fun l hl hs => encList_gives fun a ha => ih a (hl.2 a ha) (hs.mono (le_sum ha))
  | vec t ih =>
    exact fun l hl hs => vecOf_gives (E := E) t l fun a ha => ih a (hl a ha)
      (hs.mono (Nat.le_trans (le_sum (w := t.most S) ha) (Nat.le_add_left _ _)))
  | btreeMap k v ihk ihv | hashMap k v ihk ihv =>
    intro l hl hs
    have hm : ∀ a ∈ l, k.most S a.1 + v.most S a.2 ≤ 9 + (l.map fun e => k.most S e.1 + v.most S e.2).sum := fun a ha =>
      Nat.le_trans (le_sum (w := fun e => k.most S e.1 + v.most S e.2) ha) (Nat.le_add_left _ _)
    refine .bind (encList_gives (w := fun e => k.most S e.1 + v.most S e.2) fun a ha =>
      .bind (ihk _ (hl.1 a ha).1 (hs.mono (Nat.le_trans (Nat.le_add_right _ _) (hm a ha)))) fun b hb =>
      .bind (ihv _ (hl.1 a ha).2 (hs.mono (Nat.le_trans (Nat.le_add_left _ _) (hm a ha)))) fun b' hb' => .ok ?_)
      fun b hb => counted_most cfg _ hb
    simp only [List.length_append]
    omega
  | btreeSet t ih | hashSet t ih | binaryHeap t ih =>
    intro l hl hs
    refine .bind (encList_gives (w := t.most S) fun a ha => ih a (hl.1 a ha)
      (hs.mono (Nat.le_trans (le_sum (w := t.most S) ha) (Nat.le_add_left _ _)))) fun b hb => counted_most cfg _ hb
  | vector t ih =>
    intro l hl hs
    refine .bind (encList_gives (w := t.most S) fun a ha => ih a (hl a ha)
      (hs.mono (Nat.le_trans (le_sum (w := t.most S) ha) (Nat.le_add_left _ _)))) fun b hb => counted_most cfg _ hb
  | ext i => exact fun v hv hs => hx i v hv hs


theorem fixedOf_gives (cfg : Cfg) (hx : ∀ i x, G i x → Small lim (S i x) → Gives (S i x) ((E.extC i).enc x)) (t : Ty ι)
    (v : t.denote E.X) (hv : t.WF (E.only G) v) (hs : Small lim (t.most S v)) :
    Gives (t.most S v) ((fixedOf cfg E t).enc v) := by
  cases t <;> first
    | exact Ty.gives cfg hx _ v hv hs
    | (rename_i k; cases k <;> first
      | exact .ok (encInt_most cfg _ v)
      | exact .ok (by simp [Ty.most, IntTy.most, IntTy.bits]))

theorem bulkOf_gives (cfg : Cfg) (hx : ∀ i x, G i x → Small lim (S i x) → Gives (S i x) ((E.extC i).enc x)) (t : Ty ι)
    (v : t.denote E.X) (hv : t.WF (E.only G) v) (hs : Small lim (t.most S v)) :
    Gives (t.most S v) ((bulkOf cfg E t).enc v) := by
  cases t <;> first
    | exact Ty.gives cfg hx _ v hv hs
    | (rename_i t
       exact vecOf_gives (E := E) t v fun a ha => Ty.gives cfg hx t a (hv a ha)
        (hs.mono (Nat.le_trans (le_sum (w := t.most S) ha) (Nat.le_add_left _ _))))

/-- The encodings one by one: as many as elements, and no longer in all than the elements take. -/
theorem encEach_gives {f : α → Res β} {w : α → Nat} {z : β → Nat} : ∀ {l : List α},
    (∀ a ∈ l, ∃ b, f a = .ok b ∧ z b ≤ w a) →
    ∃ bs, encEach f l = .ok bs ∧ bs.length = l.length ∧ (bs.map z).sum ≤ (l.map w).sum
  | [], _ => ⟨[], rfl, rfl, Nat.le_refl _⟩
  | a :: l, h => by
    obtain ⟨b, h1, h2⟩ := h a (.head _)
    obtain ⟨bs, h3, h4, h5⟩ := encEach_gives fun a ha => h a (.tail _ ha)
    refine ⟨b :: bs, ?_, ?_, ?_⟩
    · simp only [encEach]
      rw [h1, Res.ok_bind, h3]
      rfl
    · simp [h4]
    · simp only [List.map_cons, List.sum_cons]; omega

theorem seqOffsets_gives : ∀ (bs : List Bytes) (off : Nat), off + (bs.map List.length).sum < 2 ^ 32 →
    ∃ r, seqOffsets off bs = .ok r ∧ r.1.length = bs.length
  | [], _, _ => ⟨_, rfl, rfl⟩
  | b :: bs, off, h => by
    simp only [List.map_cons, List.sum_cons] at h
    have e : b.length % 2 ^ 32 = b.length := Nat.mod_eq_of_lt (by omega)
    obtain ⟨r, h1, h2⟩ := seqOffsets_gives bs (off + b.length) (by omega)
    refine ⟨(off :: r.1, r.2), ?_, by simp [h2]⟩
    unfold seqOffsets
    rw [e, if_pos (by omega), h1]
    rfl

theorem mapOffsets_gives : ∀ (ps : List (Bytes × Bytes)) (k v : Nat),
    k + (ps.map fun p => p.1.length + p.2.length).sum < 2 ^ 32 →
    v + (ps.map fun p => p.1.length + p.2.length).sum < 2 ^ 32 →
    ∃ r, mapOffsets k v ps = .ok r ∧ r.1.length = ps.length
  | [], _, _, _, _ => ⟨_, rfl, rfl⟩
  | (kb, vb) :: ps, k, v, h, h' => by
    simp only [List.map_cons, List.sum_cons] at h h'
    have e : kb.length % 2 ^ 32 = kb.length := Nat.mod_eq_of_lt (by omega)
    have e' : vb.length % 2 ^ 32 = vb.length := Nat.mod_eq_of_lt (by omega)
    obtain ⟨r, h1, h2⟩ := mapOffsets_gives ps (k + kb.length) (v + vb.length) (by omega) (by omega)
    refine ⟨((k, v) :: r.1, r.2), ?_, by simp [h2]⟩
    unfold mapOffsets
    rw [e, e', if_pos (by omega), if_pos (by omega), h1]
    rfl

theorem length_flatten_map {f : α → Bytes} : ∀ (l : List α), (l.map f).flatten.length = (l.map fun a => (f a).length).sum
  | [] => rfl
  | a :: l => by
    rw [List.map_cons, List.flatten_cons, List.length_append, length_flatten_map l, List.map_cons, List.sum_cons]

theorem writeSeqBodies_gives (bs : List Bytes) (h : (bs.map List.length).sum < 2 ^ 32) :
    Gives (10 + 4 * bs.length + (bs.map List.length).sum) (writeSeqBodies bs) := by
  have hv := writeVarint_most bs.length
  unfold writeSeqBodies
  split
  · exact .ok (by simp only [List.length_cons, List.length_append, List.length_flatten]; omega)
  · obtain ⟨r, h1, h2⟩ := seqOffsets_gives bs 0 (by omega)
    rw [h1]
    refine .ok ?_
    have : (r.1.map (leBytes 4)).flatten.length = 4 * r.1.length := by
      rw [length_flatten_map]
      simp only [leBytes_length]
      rw [sum_const]; omega
    simp only [List.length_cons, List.length_append, this]
    rw [h2, List.length_flatten]
    omega

theorem sum_split : ∀ ps : List (Bytes × Bytes), (ps.map fun p => p.1.length).sum + (ps.map fun p => p.2.length).sum =
    (ps.map fun p => p.1.length + p.2.length).sum
  | [] => rfl
  | p :: ps => by
    have := sum_split ps
    simp only [List.map_cons, List.sum_cons]
    omega

theorem writeMapPairs_gives (ps : List (Bytes × Bytes)) (h : (ps.map fun p => p.1.length + p.2.length).sum < 2 ^ 32) :
    Gives (18 + 8 * ps.length + (ps.map fun p => p.1.length + p.2.length).sum) (writeMapPairs ps) := by
  have hv := writeVarint_most ps.length
  unfold writeMapPairs
  split
  · refine .ok ?_
    simp only [List.length_cons, List.length_append, length_flatten_map]
    omega
  · obtain ⟨r, h1, h2⟩ := mapOffsets_gives ps 0 0 (by omega) (by omega)
    rw [h1]
    refine .ok ?_
    have : (r.1.map fun o => leBytes 4 o.1 ++ leBytes 4 o.2).flatten.length = 8 * r.1.length := by
      rw [length_flatten_map]
      simp only [List.length_append, leBytes_length]
      rw [sum_const]; omega
    have hsp := sum_split ps
    simp only [List.length_cons, List.length_append, this, leBytes_length]
    rw [h2, length_flatten_map, length_flatten_map]
    omega

theorem sum_perm {l l' : List α} {w : α → Nat} (h : List.Perm l l') : (l.map w).sum = (l'.map w).sum := by
  induction h with
  | nil => rfl
  | cons _ _ ih => simp only [List.map_cons, List.sum_cons, ih]
  | swap => simp only [List.map_cons, List.sum_cons]; omega
  | trans _ _ ih ih' => exact ih.trans ih'

theorem serializeIndexedSeq_gives {f : α → Res Bytes} {w : α → Nat} {l : List α} (h : ∀ a ∈ l, Gives (w a) (f a))
    (hs : (l.map w).sum < 2 ^ 32) : Gives (18 + (l.map w).sum + 8 * l.length) (serializeIndexedSeq f l) := by
  obtain ⟨bs, h1, h2, h3⟩ := encEach_gives (β := Bytes) (z := List.length) h
  unfold serializeIndexedSeq
  rw [h1, Res.ok_bind]
  exact (writeSeqBodies_gives bs (by omega)).mono (by omega)

theorem serializeIndexedSet_gives {f : α → Res Bytes} {w : α → Nat} {l : List α} (h : ∀ a ∈ l, Gives (w a) (f a))
    (hs : (l.map w).sum < 2 ^ 32) : Gives (18 + (l.map w).sum + 8 * l.length) (serializeIndexedSet f l) := by
  obtain ⟨bs, h1, h2, h3⟩ := encEach_gives (β := Bytes) (z := List.length) h
  unfold serializeIndexedSet
  rw [h1, Res.ok_bind]
  have hp := List.mergeSort_perm bs (fun a b => (cmpBytes a b).isLE)
  have e1 := sum_perm (w := List.length) hp
  have e2 := hp.length_eq
  exact (writeSeqBodies_gives _ (by omega)).mono (by omega)

theorem serializeIndexedEntries_gives {f : κ → Res Bytes} {g : ν → Res Bytes} {w : κ → Nat} {x : ν → Nat}
    {l : List (κ × ν)} (h : ∀ e ∈ l, Gives (w e.1) (f e.1) ∧ Gives (x e.2) (g e.2))
    (hs : (l.map fun e => w e.1 + x e.2).sum < 2 ^ 32) :
    Gives (18 + (l.map fun e => w e.1 + x e.2).sum + 8 * l.length) (serializeIndexedEntries f g l) := by
  obtain ⟨ps, h1, h2, h3⟩ := encEach_gives (f := encPair f g) (w := fun e : κ × ν => w e.1 + x e.2)
    (z := fun p : Bytes × Bytes => p.1.length + p.2.length) (l := l) fun e he => by
      obtain ⟨⟨b, hb, hbl⟩, ⟨b', hb', hbl'⟩⟩ := h e he
      exact ⟨(b, b'), by unfold encPair; rw [hb, hb']; rfl, Nat.add_le_add hbl hbl'⟩
  unfold serializeIndexedEntries
  rw [h1, Res.ok_bind]
  have hp := List.mergeSort_perm ps (fun a b => (cmpBytes a.1 b.1).isLE)
  have e1 := sum_perm (w := fun p : Bytes × Bytes => p.1.length + p.2.length) hp
  have e2 := hp.length_eq
  exact (writeMapPairs_gives _ (by omega)).mono (by omega)

theorem indexedOf_gives (cfg : Cfg) (hx : ∀ i x, G i x → Small true (S i x) → Gives (S i x) ((E.extC i).enc x)) (t : Ty ι)
    (v : t.denote E.X) (hv : t.WF (E.only G) v) (hs : Small true (t.most S v)) :
    Gives (t.most S v + (9 + 8 * t.count v)) ((indexedOf cfg E t).enc v) := by
  have hw := fun t => Ty.gives (lim := true) cfg hx t
  have hsum : ∀ {α : Type} {w : α → Nat} {l : List α}, Small true (9 + (l.map w).sum) →
      (l.map w).sum < 2 ^ 32 ∧ ∀ a ∈ l, Small true (w a) := fun {α w l} h =>
    ⟨by have := h rfl; omega, fun a ha _ => by have := h rfl; have := le_sum (w := w) ha; omega⟩
  cases t with
  | btreeMap k w | hashMap k w =>
    have h := hsum hs
    refine (serializeIndexedEntries_gives (w := k.most S) (x := w.most S) (fun e he => ⟨hw _ _ (hv.1 e he).1 ?_,
      hw _ _ (hv.1 e he).2 ?_⟩) h.1).mono ?_
    · exact (h.2 e he).mono (Nat.le_add_right _ _)
    · exact (h.2 e he).mono (Nat.le_add_left _ _)
    · simp only [Ty.most, Ty.count]; omega
  | btreeSet k | hashSet k =>
    have h := hsum hs
    refine (serializeIndexedSet_gives (w := k.most S) (fun e he => hw _ _ (hv.1 e he) (h.2 e he)) h.1).mono ?_
    simp only [Ty.most, Ty.count]; omega
  | vec k | vector k =>
    have h := hsum hs
    refine (serializeIndexedSeq_gives (w := k.most S) (fun e he => hw _ _ (hv e he) (h.2 e he)) h.1).mono ?_
    simp only [Ty.most, Ty.count]; omega
  | _ => exact (hw _ v hv hs).mono (Nat.le_add_right _ _)

end

theorem Ty.wf_only {ι : Type} (E : Env ι) (t : Ty ι) :
    ∀ v, t.WF (E.only fun i => (E.extC i).valid) v ↔ t.WF E v := by
  induction t with
  | option t ih => exact fun v => forall_congr' fun a => imp_congr_right fun _ => ih a
  | result t e iht ihe =>
    exact fun v => and_congr (forall_congr' fun a => imp_congr_right fun _ => iht a)
      (forall_congr' fun a => imp_congr_right fun _ => ihe a)
  | bound t ih => exact fun v => forall_congr' fun a => imp_congr_right fun _ => ih a
  | wrap t ih => exact ih
  | pair s t ihs iht => exact fun v => and_congr (ihs _) (iht _)
  | array n t ih => exact fun v => and_congr_right fun _ => forall_congr' fun a => imp_congr_right fun _ => ih a
  | vec t ih | vector t ih => exact fun v => forall_congr' fun a => imp_congr_right fun _ => ih a
  | btreeMap k v ihk ihv | hashMap k v ihk ihv =>
    exact fun l => and_congr_left fun _ => forall_congr' fun a => imp_congr_right fun _ => and_congr (ihk _) (ihv _)
  | btreeSet t ih | hashSet t ih | binaryHeap t ih =>
    exact fun l => and_congr_left fun _ => forall_congr' fun a => imp_congr_right fun _ => ih a
  | _ => exact fun _ => Iff.rfl

section
variable {φ V : Type} {Q : φ → V → Prop} (d : φ → FieldDecl V) {w : FieldDecl V → Codec V} {m : φ → V → Nat}

theorem serializeFields_gives {r : Nat} : ∀ (fs : List φ) (vs : List V),
    Pointwise Q (fs.filter fun f => (d f).existsAt r) vs →
    (∀ p ∈ (fs.filter fun f => (d f).existsAt r).zip vs, Q p.1 p.2 → Gives (m p.1 p.2) ((w (d p.1)).enc p.2)) →
    Gives (((fs.filter fun f => (d f).existsAt r).zip vs).map fun p => m p.1 p.2).sum
      (serializeFields (fun f v => (w f).enc v) r (fs.map d) vs)
  | [], _, _, _ => .ok (Nat.zero_le _)
  | f :: fs, vs, hp, hw => by
    rw [List.map_cons, serializeFields.eq_def]
    simp only
    by_cases h : (d f).existsAt r = true
    · rw [if_pos h]
      rw [List.filter_cons_of_pos (p := fun f => (d f).existsAt r) h] at hp hw ⊢
      cases hp with
      | cons hq hp =>
        rw [List.zip_cons_cons] at hw ⊢
        rw [List.map_cons, List.sum_cons]
        exact .bind (hw _ (.head _) hq) fun b hb =>
          .bind (serializeFields_gives fs _ hp fun g hg => hw g (.tail _ hg)) fun b' hb' => .ok (by
            rw [List.length_append]; exact Nat.add_le_add hb hb')
    · rw [if_neg h]
      rw [List.filter_cons_of_neg (p := fun f => (d f).existsAt r) h] at hp hw ⊢
      exact serializeFields_gives fs vs hp hw

theorem serializeIndexedFields_gives {r : Nat} : ∀ (fs : List φ) (vs : List V) (pos : Nat),
    Pointwise Q (fs.filter fun f => (d f).existsAt r) vs →
    (∀ p ∈ (fs.filter fun f => (d f).existsAt r).zip vs, Q p.1 p.2 → Gives (m p.1 p.2) ((w (d p.1)).enc p.2)) →
    ∃ t b, serializeIndexedFields (fun f v => (w f).enc v) r (fs.map d) vs pos = .ok (t, b) ∧
      (t ++ b).length ≤ (((fs.filter fun f => (d f).existsAt r).zip vs).map fun p => 4 + m p.1 p.2).sum
  | [], _, _, _, _ => ⟨[], [], rfl, Nat.zero_le _⟩
  | f :: fs, vs, pos, hp, hw => by
    rw [List.map_cons, serializeIndexedFields.eq_def]
    simp only
    by_cases h : (d f).existsAt r = true
    · rw [if_pos h]
      rw [List.filter_cons_of_pos (p := fun f => (d f).existsAt r) h] at hp hw ⊢
      cases hp with
      | @cons _ v _ vs hq hp =>
        rw [List.zip_cons_cons] at hw ⊢
        rw [List.map_cons, List.sum_cons]
        obtain ⟨b, h1, h2⟩ := hw _ (.head _) hq
        obtain ⟨t, b', h3, h4⟩ := serializeIndexedFields_gives fs _ (pos + b.length) hp fun g hg => hw g (.tail _ hg)
        refine ⟨leBytes 4 pos ++ t, b ++ b', ?_, ?_⟩
        · simp only at h1 ⊢
          rw [h1, Res.ok_bind, h3]
          rfl
        · simp only [List.length_append, leBytes_length] at h2 h4 ⊢
          omega
    · rw [if_neg h]
      rw [List.filter_cons_of_neg (p := fun f => (d f).existsAt r) h] at hp hw ⊢
      exact serializeIndexedFields_gives fs vs pos hp hw

theorem lengthPrefixed_gives {s : Bytes} {w : Nat} (h : s.length ≤ w) (hs : Small true w) :
    Gives (4 + w) (lengthPrefixed s) := by
  unfold lengthPrefixed
  rw [if_pos (Nat.lt_of_le_of_lt h (hs rfl))]
  exact .ok (by rw [List.length_append, leBytes_length]; omega)

theorem serializeStructBody_gives (e : Entry) {lim : Bool} (hlim : e.optimised = true → lim = true) (fs : List φ)
    (vs : List V) (hp : Pointwise Q (fs.filter fun f => (d f).existsAt e.revision) vs)
    (hw : ∀ p ∈ (fs.filter fun f => (d f).existsAt e.revision).zip vs, Q p.1 p.2 →
      Gives (m p.1 p.2) (((d p.1).wire e).enc p.2))
    (hs : Small lim (((fs.filter fun f => (d f).existsAt e.revision).zip vs).map fun p => 4 + m p.1 p.2).sum) :
    Gives (4 + (((fs.filter fun f => (d f).existsAt e.revision).zip vs).map fun p => 4 + m p.1 p.2).sum)
      (serializeStructBody e (fs.map d) vs) := by
  have hle : (((fs.filter fun f => (d f).existsAt e.revision).zip vs).map fun p => m p.1 p.2).sum ≤
      (((fs.filter fun f => (d f).existsAt e.revision).zip vs).map fun p => 4 + m p.1 p.2).sum :=
    sum_le_sum fun _ _ => Nat.le_add_left _ _
  have hplain := serializeFields_gives d (w := fun f => f.wire e) fs vs hp hw
  unfold serializeStructBody
  simp only
  by_cases ho : e.optimised = true
  · obtain rfl := hlim ho
    rw [if_pos ho]
    split
    · obtain ⟨t, b, h1, h2⟩ := serializeIndexedFields_gives d (w := fun f => f.wire e) fs vs
        (4 * aliveCount (fs.map d) e.revision) hp hw
      rw [h1]
      exact lengthPrefixed_gives h2 hs
    · exact .bind hplain fun b hb => lengthPrefixed_gives (Nat.le_trans hb hle) hs
  · rw [if_neg ho]
    exact hplain.mono (Nat.le_trans hle (Nat.le_add_left _ _))

end

section
variable {ι : Type} [DecidableEq ι] {K : ι → Kind} (cfg : Cfg) (I : Impls K) (n : Nat)
  {c : (i : ι) → Codec (Values K n i)} {G : (i : ι) → Values K n i → Prop} {S : (i : ι) → Values K n i → Nat} {lim : Bool}

theorem dynC_gives {E : Env ι} (t : Ty ι) {c : Codec (t.denote E.X)} (a : t.denote E.X) {w : Nat}
    (h : Gives w (c.enc a)) : Gives w ((dynC t c).enc ⟨t, a⟩) := by
  rw [dynC_enc]
  exact h

theorem Field.plain_gives (hx : ∀ i x, G i x → Small lim (S i x) → Gives (S i x) ((c i).enc x)) (f : Field K)
    (v : DynAt K n) (hv : f.IsValue I n G v) (hs : Small lim (v.1.most S v.2)) :
    Gives (v.1.most S v.2) ((f.decl cfg I n c).plain.enc v) := by
  obtain ⟨a, rfl, ha, _⟩ := hv
  exact dynC_gives (E := I.env n c) f.ty a (f.ty.gives (E := I.env n c) cfg hx a ha hs)

theorem Field.legacy_gives (hx : ∀ i x, G i x → Small lim (S i x) → Gives (S i x) ((c i).enc x)) (f : Field K)
    (v : DynAt K n) (hv : f.IsValue I n G v) (hs : Small lim (v.1.most S v.2)) :
    Gives (v.1.most S v.2) ((f.decl cfg I n c).legacyC.enc v) := by
  unfold FieldDecl.legacyC
  split
  · obtain ⟨a, rfl, ha, _⟩ := hv
    exact dynC_gives (E := I.env n c) f.ty a (fixedOf_gives (E := I.env n c) cfg hx f.ty a ha hs)
  · split
    · obtain ⟨a, rfl, ha, _⟩ := hv
      exact dynC_gives (E := I.env n c) f.ty a (bulkOf_gives (E := I.env n c) cfg hx f.ty a ha hs)
    · exact f.plain_gives cfg I n hx v hv hs

/-- Without the offset. -/
def Field.most' (S : (i : ι) → Values K n i → Nat) (f : Field K) (d : DynAt K n) : Nat :=
  d.1.most S d.2 + if f.isIndexed then 9 + 8 * d.1.count d.2 else 0

theorem Field.wire_gives (e : Entry) (hlim : e.optimised = true → lim = true)
    (hx : ∀ i x, G i x → Small lim (S i x) → Gives (S i x) ((c i).enc x)) (f : Field K) (v : DynAt K n)
    (hv : f.IsValue I n G v) (hs : Small lim (f.most' n S v)) :
    Gives (f.most' n S v) (((f.decl cfg I n c).wire e).enc v) := by
  have hs' : Small lim (v.1.most S v.2) := hs.mono (Nat.le_add_right _ _)
  unfold FieldDecl.wire FieldDecl.optimisedC
  split
  · rename_i ho
    obtain rfl := hlim ho
    split
    · rename_i hi
      obtain ⟨a, rfl, ha, _⟩ := hv
      unfold Field.most'
      rw [if_pos (show f.isIndexed = true from hi)]
      exact dynC_gives (E := I.env n c) f.ty a (indexedOf_gives (E := I.env n c) cfg hx f.ty a ha hs')
    · exact (f.plain_gives cfg I n hx v hv hs').mono (Nat.le_add_right _ _)
  · exact (f.legacy_gives cfg I n hx v hv hs').mono (Nat.le_add_right _ _)

theorem find_variant {vs : List (Variant K)} {r : Nat} (hd : DistinctVariants r (vs.map Variant.sig)) {v : Variant K}
    {x : String} (hm : v ∈ vs) (ha : v.existsAt r = true) (hi : v.ident = x) :
    vs.find? (fun v => v.existsAt r && v.ident == x) = some v := by
  have hn : ((vs.filter fun v => v.existsAt r).map (·.ident)).Nodup := by
    unfold DistinctVariants at hd
    rw [List.filter_map, List.map_map] at hd
    exact hd
  rcases h : vs.find? (fun v => v.existsAt r && v.ident == x) with _ | w
  · exact absurd (by simp [ha, hi]) (List.find?_eq_none.1 h v hm)
  · have h1 := List.find?_some h
    rw [Bool.and_eq_true, beq_iff_eq] at h1
    rw [inj_of_nodup_map _ hn (List.mem_filter.2 ⟨hm, ha⟩)
      (List.mem_filter.2 ⟨List.mem_of_find?_eq_some h, h1.1⟩) (hi.trans h1.2.symm)]
    exact h

theorem Body.gives (hx : ∀ i x, G i x → Small lim (S i x) → Gives (S i x) ((c i).enc x)) (h : List Entry)
    (hh : ValidHistory h) (hlim : (lastEntry h).optimised = true → lim = true) : {k : Kind} → (body : Body K k) →
    body.Accepted (lastEntry h) → (F : k.values (DynAt K n) → Nat) → body.MostOf lim F → ∀ v,
    body.IsValue I n G h.length v → Small lim (body.most S h.length F v) →
    Gives (body.most S h.length F v) ((body.codec cfg I n c h).enc v)
  | _, .struct fs, _, _, _, v, hv, hs => by
    have hrev := hh.lastEntry_revision
    have h16 := encU16_most cfg (latest h)
    have hs' : Small lim (fieldsMost S h.length fs v) := hs.mono (Nat.le_add_left _ _)
    have key := serializeStructBody_gives (fun f : Field K => f.decl cfg I n c) (Q := Field.IsValue I n G)
      (m := Field.most' n S) (lastEntry h) hlim fs v (by rw [hrev]; exact hv)
      (fun p hp hq => p.1.wire_gives cfg I n _ hlim hx p.2 hq (hs'.mono (by
        rw [hrev] at hp
        exact Nat.le_trans (Nat.le_add_left _ 4) (le_sum (w := fun p => p.1.most S p.2) hp)))) (by rw [hrev]; exact hs')
    rw [hrev] at key
    refine .bind key fun b hb => .ok ?_
    have hb' : b.length ≤ 4 + fieldsMost S h.length fs v := hb
    rw [List.length_append]
    show _ ≤ 8 + fieldsMost S h.length fs v
    omega
  | _, .enum vs, hA, _, _, x, hv, hs => by
    have hrev := hh.lastEntry_revision
    have h16 := encU16_most cfg (latest h)
    have es := decl_sigs cfg I n (c := c) vs
    have hAE : AcceptedEnum (lastEntry h) (vs.map (·.decl cfg I n c)) :=
      ⟨es ▸ hA.distinct, es ▸ hA.discs, es ▸ hA.optimised⟩
    obtain ⟨v, hvm, hva, hvi, hvf⟩ := hv
    have hfind : vs.find? (fun v => v.existsAt h.length && v.ident == x.variant) = some v :=
      find_variant (hrev ▸ hA.distinct) hvm hva hvi
    have hmost : ∀ F, (Body.enum vs).most S h.length F x = 8 + fieldsMost S h.length v.fields x.fields := by
      intro F
      simp only [Body.most]
      rw [hfind]
    rw [hmost] at hs ⊢
    have hs' : Small lim (fieldsMost S h.length v.fields x.fields) := hs.mono (Nat.le_add_left _ _)
    suffices hbody : Gives (5 + fieldsMost S h.length v.fields x.fields)
        (serializeEnumBody cfg (lastEntry h) (vs.map (·.decl cfg I n c)) x) from
      .bind hbody fun b hb => .ok (by rw [List.length_append]; omega)
    unfold serializeEnumBody
    split
    · rename_i hfind
      obtain ⟨d, hd⟩ := hAE.arm_total (v := v.decl cfg I n c) (List.mem_map_of_mem hvm) (by rw [hrev]; exact hva)
      have := List.find?_eq_none.1 hfind _ hd
      exact absurd (beq_iff_eq.2 hvi) this
    · rename_i id w hfind
      have hmem := List.mem_of_find?_eq_some hfind
      have hid : w.ident = x.variant := by simpa using List.find?_some hfind
      obtain ⟨hwm, hwa, _⟩ := mem_variantArms.1 hmem
      have hsame := hAE.same (v := v.decl cfg I n c) (List.mem_map_of_mem hvm) (by rw [hrev]; exact hva) hwm hwa
        (hvi.trans hid.symm)
      subst hsame
      have hp : Pointwise (Field.IsValue I n G)
          (v.fields.filter fun f => (f.decl cfg I n c).existsAt (lastEntry h).revision) x.fields := by
        rw [hrev]; exact hvf
      have hfields : Gives (fieldsMost S h.length v.fields x.fields)
          (serializeFields (fun f w => (f.variantWire (lastEntry h)).enc w) (lastEntry h).revision
            (v.decl cfg I n c).fields x.fields) := by
        refine (serializeFields_gives (fun f : Field K => f.decl cfg I n c) (m := fun _ d => d.1.most S d.2)
          (w := fun f => f.variantWire (lastEntry h)) v.fields x.fields hp fun p hp ha => ?_).mono ?_
        · rw [hrev] at hp
          have hsp : Small lim (p.2.1.most S p.2.2) := hs'.mono (Nat.le_trans (Nat.le_trans (Nat.le_add_right _ _)
            (Nat.le_add_left _ 4)) (le_sum (w := fun p => p.1.most S p.2) hp))
          unfold FieldDecl.variantWire
          split
          · exact p.1.plain_gives cfg I n hx p.2 ha hsp
          · exact p.1.legacy_gives cfg I n hx p.2 ha hsp
        · rw [hrev]
          exact sum_le_sum fun p _ => Nat.le_trans (Nat.le_add_right _ _) (Nat.le_add_left _ 4)
      refine .bind hfields fun body hb => ?_
      split
      · rename_i ho
        obtain rfl := hlim ho
        unfold serializeSized
        simp only
        split
        · exact .ok (by simp only [List.length_singleton]; omega)
        · exact .ok (by simp only [List.length_cons]; omega)
        · exact .bind (lengthPrefixed_gives hb hs') fun b hb => .ok (by simp only [List.length_cons]; omega)
      · have := encU32_most cfg id
        exact .ok (by rw [List.length_append]; omega)
  | _, .foreign x, _, F, hc, v, hv, hs => hc v hv hs

theorem Program.gives (P : Program ι) (I : Impls P.kind) {F : (n : Nat) → (i : ι) → Values P.kind (n + 1) i → Nat}
    (hP : P.Bounded lim F) (hlim : ∀ i, (lastEntry (P.history i)).optimised = true → lim = true) :
    ∀ n i v, P.IsValue I n i v → Small lim (P.most F n i v) → Gives (P.most F n i v) ((P.codec cfg I n i).enc v)
  | 0, _, v, _, _ => nomatch v
  | n + 1, i, v, hv, hs => Body.gives cfg I n (Program.gives P I hP hlim n) (P.history i) (hP.history i) (hlim i)
      (P.body i) (hP.accepted i) (F n i) (hP.foreign n i) v hv hs

end

end Revision
