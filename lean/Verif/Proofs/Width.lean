import Verif.Proofs.Features
import Verif.Proofs.Size
import Verif.Spec.Width

/-! # Lemmas on `fixed-width-encoding` (for `Props/Width`) -/

namespace Revision

variable {ι : Type}

theorem encInt_width (sp : Bool) (k : IntTy) (v : BitVec k.bits) : (encInt ⟨true, sp⟩ k v).length = k.bits / 8 := by
  cases k <;> simp [encInt, IntTy.bits]

theorem encLen_width (sp : Bool) (n : Nat) : (encLen ⟨true, sp⟩ n).length = 8 := encInt_width sp .usize _

theorem encU32_width (sp : Bool) (n : Nat) : (encU32 ⟨true, sp⟩ n).length = 4 := encInt_width sp .u32 _

theorem encU16_width (sp : Bool) (n : Nat) : (encU16 ⟨true, sp⟩ n).length = 2 := encInt_width sp .u16 _

/-- A prefix of `k` bytes before what a part writes. -/
theorem AllTake.pre {e : α → Res Bytes} {v : α} {p b : Bytes} {k n : Nat} (hp : p.length = k) (h : e v = .ok b)
    (hb : b.length = n) : ∃ c, (do let b ← e v; pure (p ++ b) : Res Bytes) = .ok c ∧ c.length = k + n :=
  ⟨p ++ b, by rw [h]; rfl, by rw [List.length_append, hp, hb]⟩

theorem encList_width {e : α → Res Bytes} {n : Nat} : ∀ l : List α, (∀ a ∈ l, ∃ b, e a = .ok b ∧ b.length = n) →
    ∃ b, encList e l = .ok b ∧ b.length = l.length * n
  | [], _ => ⟨[], rfl, by simp⟩
  | a :: l, h => by
    obtain ⟨b, h1, h2⟩ := h a (.head _)
    obtain ⟨c, h3, h4⟩ := encList_width l fun a ha => h a (.tail _ ha)
    exact ⟨b ++ c, encList_cons_ok h1 h3, by rw [List.length_append, h2, h4, List.length_cons, Nat.succ_mul]; omega⟩

theorem encSeq_width {sp : Bool} {e : α → Res Bytes} (l : List α) (h : ∀ a ∈ l, ∃ b, e a = .ok b ∧ b.length = 0) :
    ∃ b, encSeq ⟨true, sp⟩ e l = .ok b ∧ b.length = 8 := by
  obtain ⟨b, h1, h2⟩ := encList_width l h
  refine ⟨encLen ⟨true, sp⟩ l.length ++ b, ?_, by rw [List.length_append, encLen_width, h2]; omega⟩
  unfold encSeq
  rw [h1]; rfl

theorem encSeq_nil {sp : Bool} {e : α → Res Bytes} : ∃ b, encSeq ⟨true, sp⟩ e [] = .ok b ∧ b.length = 8 :=
  encSeq_width [] nofun

theorem encSeq_single {sp : Bool} {e : α → Res Bytes} {a : α} {b : Bytes} (h : e a = .ok b) :
    ∃ c, encSeq ⟨true, sp⟩ e [a] = .ok c ∧ c.length = 8 + b.length := by
  obtain ⟨c, h1, h2⟩ := encList_width (e := e) (n := b.length) [a] (by simpa using ⟨b, h, rfl⟩)
  refine ⟨encLen ⟨true, sp⟩ 1 ++ c, ?_, by rw [List.length_append, encLen_width, h2]; simp⟩
  unfold encSeq
  rw [h1]; rfl

/-- Some value takes at least one byte, unless all take none. -/
theorem AllTake.nonempty {ok : α → Prop} {e : α → Res Bytes} {w : Option Nat} (h : AllTake ok e w) (hw : w ≠ some 0) :
    ∃ v b, ok v ∧ e v = .ok b ∧ b.length ≠ 0 := by
  cases w with
  | none =>
    obtain ⟨v, x, b, c, h1, h2, h3, h4, hne⟩ := h
    by_cases hb : b.length = 0
    · exact ⟨x, c, h2, h4, by omega⟩
    · exact ⟨v, b, h1, h3, hb⟩
  | some n =>
    obtain ⟨⟨v, hv⟩, h⟩ := h
    obtain ⟨b, h1, h2⟩ := h v hv
    exact ⟨v, b, hv, h1, fun h0 => hw (by rw [← h2, h0])⟩

/-- There is a value, and it is written. -/
theorem AllTake.sample {ok : α → Prop} {e : α → Res Bytes} {w : Option Nat} (h : AllTake ok e w) :
    ∃ v b, ok v ∧ e v = .ok b := by
  cases w with
  | none =>
    obtain ⟨v, x, b, c, h1, _, h3, _⟩ := h
    exact ⟨v, b, h1, h3⟩
  | some n =>
    obtain ⟨⟨v, hv⟩, h⟩ := h
    obtain ⟨b, h1, _⟩ := h v hv
    exact ⟨v, b, hv, h1⟩

/-- A collection: a count and the elements. -/
theorem AllTake.coll {sp : Bool} {ok : α → Prop} {e : α → Res Bytes} {w : Option Nat} (h : AllTake ok e w)
    {okl : List α → Prop} {el : List α → Res Bytes} (h0 : okl []) (h1 : ∀ a, ok a → okl [a])
    (h2 : ∀ l, okl l → ∀ a ∈ l, ok a) (he : el = encSeq ⟨true, sp⟩ e) :
    AllTake okl el (if w = some 0 then some 8 else none) := by
  subst he
  split
  · rename_i hw
    subst hw
    exact ⟨⟨[], h0⟩, fun l hl => encSeq_width l fun a ha => h.2 a (h2 l hl a ha)⟩
  · rename_i hw
    obtain ⟨v, b, hv, hb, hne⟩ := h.nonempty hw
    obtain ⟨x, hx, hxl⟩ := encSeq_nil (sp := sp) (e := e)
    obtain ⟨y, hy, hyl⟩ := encSeq_single (sp := sp) hb
    exact ⟨[], [v], x, y, h0, h1 v hv, hx, hy, by omega⟩

theorem AllTake.pair {a : Codec α} {b : Codec β} {okA : α → Prop} {okB : β → Prop} {u w : Option Nat}
    (ha : AllTake okA a.enc u) (hb : AllTake okB b.enc w) :
    AllTake (fun p : α × β => okA p.1 ∧ okB p.2) (pairC a b).enc (both u w) := by
  obtain ⟨x, p, hx, hp⟩ := ha.sample
  obtain ⟨y, q, hy, hq⟩ := hb.sample
  cases u with
  | none =>
    obtain ⟨v, v', c, c', h1, h2, h3, h4, hne⟩ := ha
    have : AllTake (fun p : α × β => okA p.1 ∧ okB p.2) (pairC a b).enc none :=
      ⟨(v, y), (v', y), c ++ q, c' ++ q, ⟨h1, hy⟩, ⟨h2, hy⟩, encPair_ok' h3 hq, encPair_ok' h4 hq, by simpa using hne⟩
    cases w <;> exact this
  | some m =>
    cases w with
    | none =>
      obtain ⟨v, v', c, c', h1, h2, h3, h4, hne⟩ := hb
      exact ⟨(x, v), (x, v'), p ++ c, p ++ c', ⟨hx, h1⟩, ⟨hx, h2⟩, encPair_ok' hp h3, encPair_ok' hp h4, by simpa using hne⟩
    | some n =>
      refine ⟨⟨(x, y), hx, hy⟩, fun v hv => ?_⟩
      obtain ⟨c, h1, h2⟩ := ha.2 _ hv.1
      obtain ⟨d, h3, h4⟩ := hb.2 _ hv.2
      exact ⟨c ++ d, encPair_ok' h1 h3, by rw [List.length_append, h2, h4]⟩

theorem AllTake.congr {ok ok' : α → Prop} {e : α → Res Bytes} {w : Option Nat} (h : AllTake ok e w)
    (ho : ∀ a, ok a ↔ ok' a) : AllTake ok' e w := by
  have : ok = ok' := funext fun a => propext (ho a)
  exact this ▸ h

theorem Ty.allTake (sp : Bool) (E : Env ι) (X : ι → Option Nat)
    (hx : ∀ i, AllTake (E.extC i).valid (E.extC i).enc (X i)) (t : Ty ι) :
    AllTake (t.WF E) (t.codec ⟨true, sp⟩ E).enc (t.width X) := by
  induction t with
  | unit => exact ⟨⟨(), trivial⟩, fun _ _ => ⟨[], rfl, rfl⟩⟩
  | bool => exact ⟨⟨false, trivial⟩, fun v _ => ⟨_, rfl, by cases v <;> rfl⟩⟩
  | int k => exact ⟨⟨0, trivial⟩, fun v _ => ⟨_, rfl, encInt_width sp k v⟩⟩
  | float f => exact ⟨⟨0, trivial⟩, fun v _ => ⟨_, rfl, by simp⟩⟩
  | notNan f =>
    refine ⟨⟨0, ?_⟩, fun v _ => ⟨_, rfl, by simp⟩⟩
    cases f
    · exact (by simp [FloatTy.IsNaN] : ¬ FloatTy.f32.IsNaN 0)
    · exact (by simp [FloatTy.IsNaN] : ¬ FloatTy.f64.IsNaN 0)
  | uuid => exact ⟨⟨0, trivial⟩, fun v _ => ⟨_, rfl, by simp⟩⟩
  | duration =>
    refine ⟨⟨(0, 0), (by decide : (0 : BitVec 32).toNat < 1000000000)⟩, fun v _ => ⟨_, rfl, ?_⟩⟩
    rw [List.length_append, encInt_width, encInt_width]; rfl
  | systemTime =>
    refine ⟨⟨(0, 0), (by decide : 0 ≤ (0 : BitVec 64).toInt ∧ (0 : BitVec 32).toNat < 1000000000)⟩, fun d hd => ?_⟩
    refine ⟨encInt ⟨true, sp⟩ .u64 d.1 ++ encInt ⟨true, sp⟩ .u32 d.2, ?_, ?_⟩
    · show (if _ then _ else _) = _
      rw [if_neg (by have := hd.1; omega)]
    · rw [List.length_append, encInt_width, encInt_width]; rfl
  | char => exact ⟨'a', 'é', _, _, trivial, trivial, rfl, rfl, by decide⟩
  | string => exact ⟨"", "a", _, _, trivial, trivial, rfl, rfl, by
      unfold encBytes
      rw [List.length_append, List.length_append, encLen_width, encLen_width]; decide⟩
  | bytes => exact ⟨[], [0], _, _, trivial, trivial, rfl, rfl, by
      unfold encBytes
      rw [List.length_append, List.length_append, encLen_width, encLen_width]; decide⟩
  | path =>
    have h : ∀ s, (Ty.path.codec ⟨true, sp⟩ E).enc (strBytes s) = .ok (encBytes ⟨true, sp⟩ (strBytes s)) := fun s => by
      show (match fromUtf8 (strBytes s) with | .ok _ => _ | _ => _) = _
      rw [fromUtf8_strBytes]
    exact ⟨_, _, _, _, ⟨"", rfl⟩, ⟨"a", rfl⟩, h "", h "a", by
      unfold encBytes
      rw [List.length_append, List.length_append, encLen_width, encLen_width]; decide⟩
  | option t ih =>
    simp only [width]
    split
    · rename_i hw
      rw [hw] at ih
      refine ⟨⟨none, nofun⟩, fun v hv => ?_⟩
      cases v with
      | none => exact ⟨_, rfl, rfl⟩
      | some a =>
        obtain ⟨b, h1, h2⟩ := ih.2 a (hv a rfl)
        exact AllTake.pre (k := 1) (encInt_width sp .u8 1) h1 h2
    · rename_i hw
      obtain ⟨v, b, hv, hb, hne⟩ := ih.nonempty hw
      obtain ⟨c, h1, h2⟩ := AllTake.pre (k := 1) (encInt_width sp .u8 1) hb rfl
      exact ⟨none, some v, _, c, nofun, fun a h => by cases h; exact hv, rfl, h1,
        by show 1 ≠ c.length; omega⟩
  | bound t ih =>
    simp only [width]
    split
    · rename_i hw
      rw [hw] at ih
      refine ⟨⟨.unbounded, fun a h => h.elim nofun nofun⟩, fun v hv => ?_⟩
      cases v with
      | unbounded => exact ⟨_, rfl, encU32_width sp 0⟩
      | included a =>
        obtain ⟨b, h1, h2⟩ := ih.2 a (hv a (.inl rfl))
        exact AllTake.pre (k := 4) (encU32_width sp 1) h1 h2
      | excluded a =>
        obtain ⟨b, h1, h2⟩ := ih.2 a (hv a (.inr rfl))
        exact AllTake.pre (k := 4) (encU32_width sp 2) h1 h2
    · rename_i hw
      obtain ⟨v, b, hv, hb, hne⟩ := ih.nonempty hw
      obtain ⟨c, h1, h2⟩ := AllTake.pre (k := 4) (encU32_width sp 1) hb rfl
      exact ⟨.unbounded, .included v, _, c, fun a h => h.elim nofun nofun,
        fun a h => by rcases h with h | h <;> cases h; exact hv, rfl, h1, by rw [h2, encU32_width]; omega⟩
  | result t e ih ih' =>
    have okV : ∀ {v b}, t.WF E v → (t.codec ⟨true, sp⟩ E).enc v = .ok b →
        (Ty.result t e).WF E (.ok v) ∧ ∃ c, ((Ty.result t e).codec ⟨true, sp⟩ E).enc (.ok v) = .ok c ∧
          c.length = 4 + b.length := fun hv hb =>
      ⟨⟨fun a h => by cases h; exact hv, nofun⟩, AllTake.pre (k := 4) (encU32_width sp 0) hb rfl⟩
    have errV : ∀ {v b}, e.WF E v → (e.codec ⟨true, sp⟩ E).enc v = .ok b →
        (Ty.result t e).WF E (.error v) ∧ ∃ c, ((Ty.result t e).codec ⟨true, sp⟩ E).enc (.error v) = .ok c ∧
          c.length = 4 + b.length := fun hv hb =>
      ⟨⟨nofun, fun a h => by cases h; exact hv⟩, AllTake.pre (k := 4) (encU32_width sp 1) hb rfl⟩
    simp only [width]
    cases ht : t.width X with
    | none =>
      rw [ht] at ih
      obtain ⟨v, v', b, b', h1, h2, h3, h4, hne⟩ := ih
      obtain ⟨g1, c, g2, g3⟩ := okV h1 h3
      obtain ⟨g4, c', g5, g6⟩ := okV h2 h4
      exact ⟨_, _, c, c', g1, g4, g2, g5, by omega⟩
    | some m =>
      cases he : e.width X with
      | none =>
        rw [he] at ih'
        obtain ⟨v, v', b, b', h1, h2, h3, h4, hne⟩ := ih'
        obtain ⟨g1, c, g2, g3⟩ := errV h1 h3
        obtain ⟨g4, c', g5, g6⟩ := errV h2 h4
        exact ⟨_, _, c, c', g1, g4, g2, g5, by omega⟩
      | some n =>
        rw [ht] at ih
        rw [he] at ih'
        obtain ⟨⟨v, hv⟩, h⟩ := ih
        obtain ⟨⟨v', hv'⟩, h'⟩ := ih'
        obtain ⟨b, h1, h2⟩ := h v hv
        obtain ⟨b', h3, h4⟩ := h' v' hv'
        obtain ⟨g1, c, g2, g3⟩ := okV hv h1
        obtain ⟨g4, c', g5, g6⟩ := errV hv' h3
        by_cases hmn : m = n
        · subst hmn
          dsimp only
          rw [if_pos rfl]
          refine ⟨⟨_, g1⟩, fun x hx => ?_⟩
          cases x with
          | ok a =>
            obtain ⟨d, k1, k2⟩ := h a (hx.1 a rfl)
            obtain ⟨_, c, k3, k4⟩ := okV (hx.1 a rfl) k1
            exact ⟨c, k3, by omega⟩
          | error a =>
            obtain ⟨d, k1, k2⟩ := h' a (hx.2 a rfl)
            obtain ⟨_, c, k3, k4⟩ := errV (hx.2 a rfl) k1
            exact ⟨c, k3, by omega⟩
        · dsimp only
          rw [if_neg hmn]
          exact ⟨_, _, c, c', g1, g4, g2, g5, by omega⟩
  | wrap t ih => exact ih
  | pair s t ih ih' => exact ih.pair ih'
  | array n t ih =>
    simp only [width]
    split
    · rename_i hn
      subst hn
      refine ⟨⟨[], rfl, nofun⟩, fun l hl => ?_⟩
      cases List.length_eq_zero_iff.1 hl.1
      exact ⟨[], rfl, rfl⟩
    · rename_i hn
      cases ht : t.width X with
      | none =>
        rw [ht] at ih
        obtain ⟨m, rfl⟩ := Nat.exists_eq_succ_of_ne_zero hn
        obtain ⟨x, y, c, d, h1, h2, h3, h4, hne⟩ := ih
        have wf : ∀ z, t.WF E z → (Ty.array (m + 1) t).WF E (z :: List.replicate m x) := fun z hz =>
          ⟨by simp, fun a h => by
            rcases List.mem_cons.1 h with rfl | h
            · exact hz
            · rw [(List.mem_replicate.1 h).2]; exact h1⟩
        exact ⟨x :: List.replicate m x, y :: List.replicate m x, _, _, wf x h1, wf y h2,
          encList_cons_ok h3 (encList_replicate h3 m), encList_cons_ok h4 (encList_replicate h3 m), by simpa using hne⟩
      | some w =>
        rw [ht] at ih
        obtain ⟨⟨v, hv⟩, h⟩ := ih
        refine ⟨⟨List.replicate n v, List.length_replicate, fun a ha => ?_⟩, fun l hl => ?_⟩
        · rw [(List.mem_replicate.1 ha).2]; exact hv
        · obtain ⟨b, h1, h2⟩ := encList_width l fun a ha => h a (hl.2 a ha)
          exact ⟨b, h1, by rw [h2, hl.1]⟩
  | vec t ih =>
    by_cases hp : t.Packed
    · cases t with
      | bool =>
        have h0 : ((Ty.vec .bool).codec ⟨true, sp⟩ E).enc [] = .ok (encLen ⟨true, sp⟩ 0 ++ []) := by
          cases sp
          · rfl
          · exact congrArg Res.ok (congrArg (_ ++ ·) (by decide +kernel : packBools (divCeil8 0) [] = []))
        have h1 : ((Ty.vec .bool).codec ⟨true, sp⟩ E).enc [true] = .ok (encLen ⟨true, sp⟩ 1 ++ [1]) := by
          cases sp
          · rfl
          · exact congrArg Res.ok (congrArg (_ ++ ·) (by decide +kernel : packBools (divCeil8 1) [true] = [1]))
        exact ⟨[], [true], _, _, nofun, fun _ _ => trivial, h0, h1, by
          rw [List.length_append, List.length_append, encLen_width, encLen_width]; decide⟩
      | int k =>
        have hw : (Ty.vec (.int k) : Ty ι).width X = none := by cases k <;> rfl
        rw [hw]
        have h0 : ((Ty.vec (.int k)).codec ⟨true, sp⟩ E).enc [] = .ok (encLen ⟨true, sp⟩ 0 ++ []) := by
          cases sp <;> cases k <;> rfl
        have h1 : ∃ b, ((Ty.vec (.int k)).codec ⟨true, sp⟩ E).enc [0] = .ok (encLen ⟨true, sp⟩ 1 ++ b) ∧ b.length ≠ 0 := by
          cases sp <;> cases k <;> exact ⟨_, rfl, Nat.succ_ne_zero _⟩
        obtain ⟨b, h1, h2⟩ := h1
        exact ⟨[], [0], _, _, nofun, fun _ _ => trivial, h0, h1, by
          rw [List.length_append, List.length_append, encLen_width, encLen_width]
          exact fun h => h2 (by simpa using h.symm)⟩
      | _ => exact absurd hp id
    · exact ih.coll (sp := sp) nofun (fun a ha => by simpa [WF] using ha) (fun l hl => hl)
        (funext fun l => vec_enc (.inr hp) l)
  | vector t ih => exact ih.coll (sp := sp) nofun (fun a ha => by simpa [WF] using ha) (fun l hl => hl) rfl
  | btreeSet t ih | hashSet t ih =>
    exact ih.coll (sp := sp) ⟨nofun, .nil⟩ (fun a ha => ⟨by simpa using ha, .cons nofun .nil⟩) (fun l hl => hl.1) rfl
  | binaryHeap t ih =>
    exact ih.coll (sp := sp) ⟨nofun, nofun⟩ (fun a ha => ⟨by simpa using ha, fun i h1 h2 => by simp at h1; omega⟩)
      (fun l hl => hl.1) rfl
  | btreeMap k v ih ih' | hashMap k v ih ih' =>
    have hw : (if k.width X = some 0 ∧ v.width X = some 0 then some 8 else none) =
        (if both (k.width X) (v.width X) = some 0 then some 8 else none) := by
      cases k.width X <;> cases v.width X <;> simp [both]
    simp only [width, hw]
    exact (ih.pair ih').coll (sp := sp) ⟨nofun, .nil⟩ (fun a ha => ⟨by simpa using ha, .cons nofun .nil⟩)
      (fun l hl => hl.1) rfl
  | ext i => exact hx i

/-! ## The types that are written alike with and without the feature -/

theorem encList_congr {e e' : α → Res Bytes} : ∀ l : List α, (∀ a ∈ l, e a = e' a) → encList e l = encList e' l
  | [], _ => rfl
  | a :: l, h => by
    unfold encList
    rw [h a (.head _), encList_congr l fun a ha => h a (.tail _ ha)]

theorem Ty.enc_widthFree {sp : Bool} {E : Env ι} (t : Ty ι) (ht : t.widthFree = true) :
    ∀ v, t.WF E v → (t.codec ⟨true, sp⟩ E).enc v = (t.codec ⟨false, sp⟩ E).enc v := by
  induction t with
  | unit | bool | float | notNan | uuid | char | ext => exact fun _ _ => rfl
  | int k => cases k <;> first | exact fun _ _ => rfl | (simp [widthFree] at ht; done)
  | option t ih =>
    intro v hv
    cases v with
    | none => rfl
    | some a =>
      exact congrArg (fun r : Res Bytes => do let b ← r; pure (encInt ⟨true, sp⟩ .u8 1 ++ b)) (ih ht a (hv a rfl))
  | wrap t ih => exact ih ht
  | pair s t ih ih' =>
    simp only [widthFree, Bool.and_eq_true] at ht
    exact fun v hv => pair_enc (ih ht.1 _ hv.1) (ih' ht.2 _ hv.2)
  | array n t ih =>
    simp only [widthFree, Bool.or_eq_true, beq_iff_eq] at ht
    intro l hl
    refine encList_congr l fun a ha => ?_
    rcases ht with rfl | ht
    · cases List.length_eq_zero_iff.1 hl.1
      cases ha
    · exact ih ht a (hl.2 a ha)
  | _ => simp [widthFree] at ht

theorem encInt_zero (sp : Bool) (k : IntTy) : (encInt ⟨false, sp⟩ k 0).length = 1 := by
  cases sp <;> cases k <;> decide

/-- A value that is not shorter with the feature, and is longer unless all values are written alike. -/
theorem Ty.longer (sp : Bool) (E : Env ι) (hx : ∀ i, ∃ x b, (E.extC i).valid x ∧ (E.extC i).enc x = .ok b) (t : Ty ι) :
    ∃ v b c, t.WF E v ∧ (t.codec ⟨true, sp⟩ E).enc v = .ok b ∧ (t.codec ⟨false, sp⟩ E).enc v = .ok c ∧
      c.length ≤ b.length ∧ (t.widthFree = false → c.length < b.length) := by
  have empty : encLen ⟨true, sp⟩ 0 = [0, 0, 0, 0, 0, 0, 0, 0] ∧ encLen ⟨false, sp⟩ 0 = [0] := ⟨rfl, rfl⟩
  have count : (encLen ⟨false, sp⟩ 0 ++ []).length < (encLen ⟨true, sp⟩ 0 ++ []).length := by
    rw [empty.1, empty.2]; decide
  have tag : (encU32 ⟨false, sp⟩ 0).length < (encU32 ⟨true, sp⟩ 0).length := by
    rw [encU32_width]; exact (by decide : 1 < 4)
  have time : (encInt ⟨false, sp⟩ .u64 0 ++ encInt ⟨false, sp⟩ .u32 0).length <
      (encInt ⟨true, sp⟩ .u64 0 ++ encInt ⟨true, sp⟩ .u32 0).length := by
    rw [List.length_append, List.length_append, encInt_zero, encInt_zero, encInt_width, encInt_width]; decide
  have coll : ∀ {α : Type} (e e' : α → Res Bytes), ∃ b c, encSeq ⟨true, sp⟩ e [] = .ok b ∧
      encSeq ⟨false, sp⟩ e' [] = .ok c ∧ c.length ≤ b.length ∧ c.length < b.length := fun e e' =>
    ⟨_, _, rfl, rfl, Nat.le_of_lt count, count⟩
  induction t with
  | unit => exact ⟨(), _, _, trivial, rfl, rfl, Nat.le_refl _, nofun⟩
  | bool => exact ⟨false, _, _, trivial, rfl, rfl, Nat.le_refl _, nofun⟩
  | int k =>
    refine ⟨0, _, _, trivial, rfl, rfl, ?_, ?_⟩
    · rw [encInt_zero, encInt_width]; cases k <;> decide
    · rw [encInt_zero, encInt_width]; cases k <;> simp [widthFree, IntTy.bits]
  | float f => exact ⟨0, _, _, trivial, rfl, rfl, Nat.le_refl _, nofun⟩
  | uuid => exact ⟨0, _, _, trivial, rfl, rfl, Nat.le_refl _, nofun⟩
  | char => exact ⟨'a', _, _, trivial, rfl, rfl, Nat.le_refl _, nofun⟩
  | notNan f =>
    cases f
    · exact ⟨0, _, _, (by simp [FloatTy.IsNaN] : ¬ FloatTy.f32.IsNaN 0), rfl, rfl, Nat.le_refl _, nofun⟩
    · exact ⟨0, _, _, (by simp [FloatTy.IsNaN] : ¬ FloatTy.f64.IsNaN 0), rfl, rfl, Nat.le_refl _, nofun⟩
  | string => exact ⟨"", _, _, trivial, rfl, rfl, Nat.le_of_lt count, fun _ => count⟩
  | bytes => exact ⟨[], _, _, trivial, rfl, rfl, Nat.le_of_lt count, fun _ => count⟩
  | path => exact ⟨[], _, _, ⟨"", rfl⟩, rfl, rfl, Nat.le_of_lt count, fun _ => count⟩
  | duration => exact ⟨(0, 0), _, _, (by decide : (0 : BitVec 32).toNat < 1000000000), rfl, rfl, Nat.le_of_lt time, fun _ => time⟩
  | systemTime => exact ⟨(0, 0), _, _, (by decide : 0 ≤ (0 : BitVec 64).toInt ∧ (0 : BitVec 32).toNat < 1000000000),
      rfl, rfl, Nat.le_of_lt time, fun _ => time⟩
  | ext i =>
    obtain ⟨x, b, hv, hb⟩ := hx i
    exact ⟨x, b, b, hv, hb, hb, Nat.le_refl _, nofun⟩
  | wrap t ih => exact ih
  | option t ih =>
    obtain ⟨v, b, c, hv, hb, hc, h1, h2⟩ := ih
    obtain ⟨p, hp, hpl⟩ := AllTake.pre (k := 1) (encInt_width sp .u8 1) hb rfl
    obtain ⟨q, hq, hql⟩ := AllTake.pre (p := encInt ⟨false, sp⟩ .u8 1) (k := 1) rfl hc rfl
    exact ⟨some v, p, q, fun a h => by cases h; exact hv, hp, hq, by omega, fun h => by have := h2 h; omega⟩
  | bound t ih => exact ⟨.unbounded, _, _, fun a h => h.elim nofun nofun, rfl, rfl, Nat.le_of_lt tag, fun _ => tag⟩
  | result t e ih ih' =>
    obtain ⟨v, b, c, hv, hb, hc, h1, h2⟩ := ih
    obtain ⟨p, hp, hpl⟩ := AllTake.pre (k := 4) (encU32_width sp 0) hb rfl
    obtain ⟨q, hq, hql⟩ := AllTake.pre (p := encU32 ⟨false, sp⟩ 0) (k := 1) rfl hc rfl
    exact ⟨.ok v, p, q, ⟨fun a h => by cases h; exact hv, nofun⟩, hp, hq, by omega, fun h => by omega⟩
  | pair s t ih ih' =>
    obtain ⟨v, b, c, hv, hb, hc, h1, h2⟩ := ih
    obtain ⟨v', b', c', hv', hb', hc', h1', h2'⟩ := ih'
    refine ⟨(v, v'), b ++ b', c ++ c', ⟨hv, hv'⟩, encPair_ok' hb hb', encPair_ok' hc hc', ?_, fun h => ?_⟩
    · simp only [List.length_append]; omega
    · simp only [widthFree, Bool.and_eq_false_iff] at h
      simp only [List.length_append]
      rcases h with h | h
      · have := h2 h; omega
      · have := h2' h; omega
  | array n t ih =>
    obtain ⟨v, b, c, hv, hb, hc, h1, h2⟩ := ih
    have hl : ∀ x : Bytes, (List.replicate n x).flatten.length = n * x.length := fun x => by simp
    refine ⟨List.replicate n v, _, _, ⟨List.length_replicate, fun a ha => ?_⟩, encList_replicate hb n,
      encList_replicate hc n, ?_, fun h => ?_⟩
    · rw [(List.mem_replicate.1 ha).2]; exact hv
    · rw [hl, hl]; exact Nat.mul_le_mul_left n h1
    · simp only [widthFree, Bool.or_eq_false_iff, beq_eq_false_iff_ne] at h
      rw [hl, hl]; exact Nat.mul_lt_mul_of_pos_left (h2 h.2) (by omega)
  | vec t =>
    have h : ∀ fw, ((Ty.vec t).codec ⟨fw, sp⟩ E).enc [] = .ok (encLen ⟨fw, sp⟩ 0 ++ []) := by
      intro fw
      cases t <;> cases sp <;> try rfl
      · exact congrArg Res.ok (congrArg (_ ++ ·) (by decide +kernel : packBools (divCeil8 0) [] = []))
      · rename_i k _
        cases k <;> rfl
    exact ⟨[], _, _, nofun, h true, h false, Nat.le_of_lt count, fun _ => count⟩
  | vector t =>
    obtain ⟨b, c, h1, h2, h3, h4⟩ := coll (t.codec ⟨true, sp⟩ E).enc (t.codec ⟨false, sp⟩ E).enc
    exact ⟨[], b, c, nofun, h1, h2, h3, fun _ => h4⟩
  | btreeSet t | hashSet t =>
    obtain ⟨b, c, h1, h2, h3, h4⟩ := coll (t.codec ⟨true, sp⟩ E).enc (t.codec ⟨false, sp⟩ E).enc
    exact ⟨[], b, c, ⟨nofun, .nil⟩, h1, h2, h3, fun _ => h4⟩
  | binaryHeap t =>
    obtain ⟨b, c, h1, h2, h3, h4⟩ := coll (t.codec ⟨true, sp⟩ E).enc (t.codec ⟨false, sp⟩ E).enc
    exact ⟨[], b, c, ⟨nofun, nofun⟩, h1, h2, h3, fun _ => h4⟩
  | btreeMap k v | hashMap k v =>
    obtain ⟨b, c, h1, h2, h3, h4⟩ := coll (pairC (k.codec ⟨true, sp⟩ E) (v.codec ⟨true, sp⟩ E)).enc
      (pairC (k.codec ⟨false, sp⟩ E) (v.codec ⟨false, sp⟩ E)).enc
    exact ⟨[], b, c, ⟨nofun, .nil⟩, h1, h2, h3, fun _ => h4⟩

/-! ## The sizes of derived types -/

/-- What is written of the values of interest takes `n` bytes. -/
def Takes (ok : α → Prop) (enc : α → Res Bytes) (n : Nat) : Prop := ∀ v b, ok v → enc v = .ok b → b.length = n

theorem Takes.list {α : Type} {ok : α → Prop} {e : α → Res Bytes} {n : Nat} (h : Takes ok e n) :
    ∀ (l : List α) (b : Bytes), (∀ a ∈ l, ok a) → encList e l = .ok b → b.length = l.length * n
  | [], b, _, hb => by cases hb; simp
  | a :: l, b, ho, hb => by
    obtain ⟨x, y, hx, hy, rfl⟩ := encList_cons hb
    rw [List.length_append, h a x (ho a (.head _)) hx, h.list l y (fun a ha => ho a (.tail _ ha)) hy, List.length_cons,
      Nat.succ_mul]; omega

theorem Takes.seq {α : Type} {sp : Bool} {ok : α → Prop} {e : α → Res Bytes} (h : Takes ok e 0) (l : List α) (b : Bytes)
    (ho : ∀ a ∈ l, ok a) (hb : encSeq ⟨true, sp⟩ e l = .ok b) : b.length = 8 := by
  unfold encSeq at hb
  obtain ⟨c, hc, hb⟩ := Res.bind_eq_ok.1 hb
  cases hb
  rw [List.length_append, encLen_width, h.list l c ho hc]; omega

theorem Takes.pair {a : Codec α} {b : Codec β} {okA : α → Prop} {okB : β → Prop} {m n : Nat}
    (ha : Takes okA a.enc m) (hb : Takes okB b.enc n) :
    Takes (fun p : α × β => okA p.1 ∧ okB p.2) (pairC a b).enc (m + n) := by
  intro v c hv hc
  obtain ⟨x, hx, hc⟩ := Res.bind_eq_ok.1 hc
  obtain ⟨y, hy, hc⟩ := Res.bind_eq_ok.1 hc
  cases hc
  rw [List.length_append, ha _ _ hv.1 hx, hb _ _ hv.2 hy]

theorem both_some {a b : Option Nat} {n : Nat} (h : both a b = some n) : ∃ x y, a = some x ∧ b = some y ∧ n = x + y := by
  cases a <;> cases b <;> simp only [both, Option.some.injEq, reduceCtorEq] at h
  exact ⟨_, _, rfl, rfl, h.symm⟩

theorem Takes.pre {e : α → Res Bytes} {v : α} {p c : Bytes} {k n : Nat} (hp : p.length = k)
    (h : ∀ b, e v = .ok b → b.length = n) (hc : (do let b ← e v; pure (p ++ b) : Res Bytes) = .ok c) : c.length = k + n := by
  obtain ⟨b, hb, hc⟩ := Res.bind_eq_ok.1 hc
  cases hc
  rw [List.length_append, hp, h b hb]

theorem Ty.takes (sp : Bool) (E : Env ι) (X : ι → Option Nat)
    (hx : ∀ i n, X i = some n → Takes (E.extC i).valid (E.extC i).enc n) (t : Ty ι) :
    ∀ n, t.width X = some n → Takes (t.WF E) (t.codec ⟨true, sp⟩ E).enc n := by
  induction t with
  | unit => intro n hn v b _ hb; cases hn; cases hb; rfl
  | bool => intro n hn v b _ hb; cases hn; cases hb; cases v <;> rfl
  | int k => intro n hn v b _ hb; cases hn; cases hb; exact encInt_width sp k v
  | float f | notNan f => intro n hn v b _ hb; cases hn; cases hb; simp
  | uuid => intro n hn v b _ hb; cases hn; cases hb; simp
  | duration =>
    intro n hn v b _ hb; cases hn; cases hb
    rw [List.length_append, encInt_width, encInt_width]; rfl
  | systemTime =>
    intro n hn d b hd hb; cases hn
    change (if _ then _ else _) = _ at hb
    rw [if_neg (by have := hd.1; omega)] at hb
    cases hb
    rw [List.length_append, encInt_width, encInt_width]; rfl
  | char | string | path | bytes => intro n hn; cases hn
  | option t ih =>
    intro n hn v b hv hb
    simp only [width] at hn
    split at hn
    · rename_i hw
      cases hn
      cases v with
      | none => cases hb; rfl
      | some a => exact Takes.pre (encInt_width sp .u8 1) (fun b => ih 0 hw a b (hv a rfl)) hb
    · cases hn
  | bound t ih =>
    intro n hn v b hv hb
    simp only [width] at hn
    split at hn
    · rename_i hw
      cases hn
      cases v with
      | unbounded => cases hb; exact encU32_width sp 0
      | included a => exact Takes.pre (encU32_width sp 1) (fun b => ih 0 hw a b (hv a (.inl rfl))) hb
      | excluded a => exact Takes.pre (encU32_width sp 2) (fun b => ih 0 hw a b (hv a (.inr rfl))) hb
    · cases hn
  | result t e ih ih' =>
    intro n hn v b hv hb
    simp only [width] at hn
    cases ht : t.width X with
    | none => rw [ht] at hn; cases hn
    | some m =>
      cases he : e.width X with
      | none => rw [ht, he] at hn; cases hn
      | some m' =>
        rw [ht, he] at hn
        dsimp only at hn
        split at hn
        · rename_i hm
          subst hm
          cases hn
          cases v with
          | ok a => exact Takes.pre (encU32_width sp 0) (fun b => ih m ht a b (hv.1 a rfl)) hb
          | error a => exact Takes.pre (encU32_width sp 1) (fun b => ih' m he a b (hv.2 a rfl)) hb
        · cases hn
  | wrap t ih => exact ih
  | pair s t ih ih' =>
    intro n hn
    obtain ⟨x, y, h1, h2, rfl⟩ := both_some hn
    exact Takes.pair (ih x h1) (ih' y h2)
  | array k t ih =>
    intro n hn l b hl hb
    simp only [width] at hn
    split at hn
    · rename_i hk
      subst hk
      cases hn
      cases List.length_eq_zero_iff.1 hl.1
      cases hb; rfl
    · cases ht : t.width X with
      | none => rw [ht] at hn; cases hn
      | some m =>
        rw [ht] at hn
        cases hn
        rw [Takes.list (ih m ht) l b hl.2 hb, hl.1]
  | vec t ih =>
    intro n hn l b hl hb
    simp only [width] at hn
    split at hn
    · rename_i hw
      cases hn
      have hp : ¬ t.Packed := by
        cases t <;> try exact id
        · simp [width] at hw
        · rename_i k; cases k <;> simp [width, IntTy.bits] at hw
      rw [vec_enc (.inr hp)] at hb
      exact Takes.seq (ih 0 hw) l b hl hb
    · cases hn
  | vector t ih =>
    intro n hn l b hl hb
    simp only [width] at hn
    split at hn
    · rename_i hw; cases hn; exact Takes.seq (sp := sp) (ih 0 hw) l b hl hb
    · cases hn
  | btreeSet t ih | hashSet t ih | binaryHeap t ih =>
    intro n hn l b hl hb
    simp only [width] at hn
    split at hn
    · rename_i hw; cases hn; exact Takes.seq (sp := sp) (ih 0 hw) l b hl.1 hb
    · cases hn
  | btreeMap k v ih ih' | hashMap k v ih ih' =>
    intro n hn l b hl hb
    simp only [width] at hn
    split at hn
    · rename_i hw; cases hn; exact Takes.seq (sp := sp) (Takes.pair (ih 0 hw.1) (ih' 0 hw.2)) l b hl.1 hb
    · cases hn
  | ext i => exact hx i

theorem fixedOf_takes (sp : Bool) (E : Env ι) (X : ι → Option Nat)
    (hx : ∀ i n, X i = some n → Takes (E.extC i).valid (E.extC i).enc n) (t : Ty ι) (n : Nat) (hn : t.width X = some n) :
    Takes (fixedOf ⟨true, sp⟩ E t).valid (fixedOf ⟨true, sp⟩ E t).enc n := by
  have key : Takes (t.codec ⟨true, sp⟩ E).valid (t.codec ⟨true, sp⟩ E).enc n := fun v b hv hb =>
    t.takes sp E X hx n hn v b (t.wf_of_valid _ v hv) hb
  cases t <;> try exact key
  rename_i k
  cases hn
  cases k <;> first | exact key | (intro v b _ hb; cases hb; simp [IntTy.bits])

theorem dynC_takes [DecidableEq ι] {E : Env ι} {t : Ty ι} {c : Codec (t.denote E.X)} {n : Nat} (h : Takes c.valid c.enc n) :
    Takes (dynC t c).valid (dynC (E := E) t c).enc n := by
  rintro v b ⟨a, ha, hv⟩ hb
  unfold dynC Codec.embed at hb
  simp only [ha] at hb
  exact h a b hv hb

section
variable {K : ι → Kind} [DecidableEq ι]

theorem Field.takes (sp : Bool) (I : Impls K) (n : Nat) (c : (i : ι) → Codec (Values K n i)) (X : ι → Option Nat)
    (hx : ∀ i m, X i = some m → Takes (c i).valid (c i).enc m) (e : Entry) (f : Field K) (m : Nat)
    (hm : f.width X e = some m) :
    Takes ((f.decl ⟨true, sp⟩ I n c).wire e).valid ((f.decl ⟨true, sp⟩ I n c).wire e).enc m := by
  have plain : ∀ m, f.ty.width X = some m → Takes (f.decl ⟨true, sp⟩ I n c).plain.valid (f.decl ⟨true, sp⟩ I n c).plain.enc m :=
    fun m hm => dynC_takes fun v b hv hb => f.ty.takes sp (I.env n c) X hx m hm v b (f.ty.wf_of_valid _ v hv) hb
  unfold Field.width at hm
  unfold FieldDecl.wire
  split at hm
  · rename_i ho
    rw [if_pos ho]
    split at hm
    · cases hm
    · rename_i hi
      unfold FieldDecl.optimisedC
      rw [if_neg (by exact hi)]
      exact plain m hm
  · rename_i ho
    rw [if_neg ho]
    split at hm
    · cases hm
    · rename_i hs
      unfold FieldDecl.legacyC
      split
      · exact dynC_takes (fixedOf_takes sp (I.env n c) X hx f.ty m hm)
      · rename_i hf
        rw [if_neg (by
          intro h
          have hf : f.opts.fixed = false := by cases h : f.opts.fixed; · rfl
                                               · exact absurd h hf
          have h : f.opts.specialised = true := h
          simp [h, hf] at hs)]
        exact plain m hm

theorem Field.widths_takes (sp : Bool) (I : Impls K) (n : Nat) (c : (i : ι) → Codec (Values K n i)) (X : ι → Option Nat)
    (hx : ∀ i m, X i = some m → Takes (c i).valid (c i).enc m) (e : Entry) :
    ∀ (fs : List (Field K)) (m : Nat), Field.widths X e fs = some m → ∀ (vs : List (DynAt K n)) (bs : List Bytes),
      AllValid (fun f => f.wire e) (fs.map (·.decl ⟨true, sp⟩ I n c)) vs →
      Encodes (fun f => f.wire e) (fs.map (·.decl ⟨true, sp⟩ I n c)) vs bs → bs.flatten.length = m ∧ bs.length = fs.length
  | [], m, hm, _, _, _, he => by
    cases he; cases hm; exact ⟨rfl, rfl⟩
  | f :: fs, m, hm, _, _, hv, he => by
    obtain ⟨x, y, h1, h2, rfl⟩ := both_some hm
    cases hv with
    | cons hv hvs =>
      cases he with
      | cons he hes =>
        obtain ⟨h3, h4⟩ := Field.widths_takes sp I n c X hx e fs y h2 _ _ hvs hes
        refine ⟨?_, by rw [List.length_cons, List.length_cons, h4]⟩
        rw [List.flatten_cons, List.length_append, Field.takes sp I n c X hx e f x h1 _ _ hv he, h3]

theorem Field.variant_takes (sp : Bool) (I : Impls K) (n : Nat) (c : (i : ι) → Codec (Values K n i)) (X : ι → Option Nat)
    (hx : ∀ i m, X i = some m → Takes (c i).valid (c i).enc m) (e : Entry) (f : Field K) (m : Nat)
    (hm : f.variantWidth X e = some m) :
    Takes ((f.decl ⟨true, sp⟩ I n c).variantWire e).valid ((f.decl ⟨true, sp⟩ I n c).variantWire e).enc m := by
  unfold Field.variantWidth at hm
  unfold FieldDecl.variantWire
  split at hm
  · rename_i ho
    rw [if_pos ho]
    exact dynC_takes fun v b hv hb => f.ty.takes sp (I.env n c) X hx m hm v b (f.ty.wf_of_valid _ v hv) hb
  · rename_i ho
    rw [if_neg ho]
    have := Field.takes sp I n c X hx e f m hm
    unfold FieldDecl.wire at this
    rw [if_neg ho] at this
    exact this

theorem Field.variantWidths_takes (sp : Bool) (I : Impls K) (n : Nat) (c : (i : ι) → Codec (Values K n i)) (X : ι → Option Nat)
    (hx : ∀ i m, X i = some m → Takes (c i).valid (c i).enc m) (e : Entry) :
    ∀ (fs : List (Field K)) (m : Nat), Field.variantWidths X e fs = some m → ∀ (vs : List (DynAt K n)) (bs : List Bytes),
      AllValid (fun f => f.variantWire e) (fs.map (·.decl ⟨true, sp⟩ I n c)) vs →
      Encodes (fun f => f.variantWire e) (fs.map (·.decl ⟨true, sp⟩ I n c)) vs bs → bs.flatten.length = m
  | [], m, hm, _, _, _, he => by
    cases he; cases hm; rfl
  | f :: fs, m, hm, _, _, hv, he => by
    obtain ⟨x, y, h1, h2, rfl⟩ := both_some hm
    cases hv with
    | cons hv hvs =>
      cases he with
      | cons he hes =>
        rw [List.flatten_cons, List.length_append, Field.variant_takes sp I n c X hx e f x h1 _ _ hv he,
          Field.variantWidths_takes sp I n c X hx e fs y h2 _ _ hvs hes]

theorem same_some {l : List (Option Nat)} {m : Nat} (h : same l = some m) : ∀ w ∈ l, w = some m := by
  cases l with
  | nil => cases h
  | cons w ws =>
    simp only [same] at h
    split at h
    · rename_i hw
      subst h
      intro x hx
      rcases List.mem_cons.1 hx with rfl | hx
      · rfl
      · exact beq_iff_eq.1 (List.all_eq_true.1 hw x hx)
    · cases h

theorem alive_decl (sp : Bool) (I : Impls K) (n : Nat) (c : (i : ι) → Codec (Values K n i)) (r : Nat) (fs : List (Field K)) :
    aliveFields (fs.map (·.decl ⟨true, sp⟩ I n c)) r =
      (fs.filter fun f => existsAt f.opts.start f.opts.stop r).map (·.decl ⟨true, sp⟩ I n c) := by
  unfold aliveFields
  rw [List.filter_map]
  rfl

theorem structLayout_length (e : Entry) (bs : List Bytes) :
    2 + (structLayout e bs).length = structOverhead e bs.length + bs.flatten.length := by
  unfold structLayout structPayload structOverhead
  cases e.optimised <;> cases e.indexedStruct <;>
    simp only [Bool.false_eq_true, if_false, if_true, List.length_append, leBytes_length, offsetTable_length] <;> omega

end

theorem enumC_takes {V : Type} (sp : Bool) (h : List Entry) (hh : ValidHistory h) (vs : List (VariantDecl V))
    (hA : AcceptedEnum (lastEntry h) vs) (v : VariantDecl V) (hm : v ∈ vs) (ha : v.existsAt h.length = true) (xs : List V)
    (hv : (enumC ⟨true, sp⟩ h vs).valid ⟨v.ident, xs⟩) (m : Nat)
    (hs : ((lastEntry h).optimised = true → v.opts.size.getD .inline = .varlen) → ∀ bs,
      AllValid (fun f => f.variantWire (lastEntry h)) (aliveFields v.fields h.length) xs →
      Encodes (fun f => f.variantWire (lastEntry h)) (aliveFields v.fields h.length) xs bs → bs.flatten.length = m)
    (out : Bytes) (ho : (enumC ⟨true, sp⟩ h vs).enc ⟨v.ident, xs⟩ = .ok out) :
    out.length = variantBytes (lastEntry h) (v.opts.size.getD .inline) m := by
  have hrev := hh.lastEntry_revision
  rw [← hrev] at ha hs
  obtain ⟨d, hd⟩ := hA.arm_total hm ha
  obtain ⟨d', u, hu, hi, hvf, hz⟩ := hv
  have e := hA.arm_ident hu hd hi
  cases e
  obtain ⟨body, hbody, ho⟩ := Res.bind_eq_ok.1 ho
  cases ho
  have hvf := (validFields_iff _ _).1 hvf
  obtain ⟨bs, hbs, _, rfl⟩ := (serializeEnumBody_ok _ (lastEntry h) vs hA _ _ hd xs hvf.length_eq body).1 hbody
  have hs := fun hz => hs hz bs hvf hbs
  rw [List.length_append, encU16_width]
  unfold enumLayout variantBytes
  by_cases hop : (lastEntry h).optimised = true
  · rw [if_pos hop, if_pos hop]
    have hwp : (fun f : FieldDecl V => f.variantWire (lastEntry h)) = fun f => f.plain := by
      funext f; unfold FieldDecl.variantWire; rw [if_pos hop]
    have hf := ValidEnum.sizeFits (vs := vs) (x := ⟨v.ident, xs⟩) hop (hz hop) bs (hwp ▸ hbs)
    revert hf hs
    cases v.opts.size.getD .inline with
    | inline => exact fun _ _ => rfl
    | fixed n =>
      intro _ hf
      have hf : bs.flatten.length = n := hf
      simp only [sizedPayload, List.length_cons]
      omega
    | varlen =>
      intro hs _
      have hs := hs fun _ => rfl
      simp only [sizedPayload, List.length_cons, List.length_append, leBytes_length]
      omega
  · rw [if_neg hop, if_neg hop, List.length_append, encU32_width, hs fun h => absurd h hop]
    omega

theorem accepted_decl {K : ι → Kind} [DecidableEq ι] (cfg : Cfg) (I : Impls K) (n : Nat) (c : (i : ι) → Codec (Values K n i))
    {e : Entry} {vs : List (Variant K)} (h : AcceptedSigs e (vs.map Variant.sig)) :
    AcceptedEnum e (vs.map (·.decl cfg I n c)) := by
  have hs : (vs.map (·.decl cfg I n c)).map VariantDecl.sig = vs.map Variant.sig := by
    rw [List.map_map]
    refine List.map_congr_left fun v _ => ?_
    simp only [Function.comp, VariantDecl.sig, Variant.sig, Variant.decl, List.map_map]
    rfl
  exact ⟨hs ▸ h.distinct, hs ▸ h.discs, hs ▸ h.optimised⟩

theorem encodes_sum {V : Type} {c : FieldDecl V → Codec V} {size : FieldDecl V → Nat} {fs : List (FieldDecl V)} {vs : List V}
    {bs : List Bytes} (hv : AllValid c fs vs) (he : Encodes c fs vs bs)
    (hs : ∀ f ∈ fs, ∀ x b, (c f).valid x → (c f).toVec x = .ok b → b.length = size f) :
    bs.flatten.length = (fs.map size).sum := by
  induction he with
  | nil => rfl
  | cons hb _ ih =>
    cases hv with
    | cons hx hv =>
      rw [List.flatten_cons, List.length_append, ih hv fun f hf => hs f (.tail _ hf), hs _ (.head _) _ _ hx hb, List.map_cons,
        List.sum_cons]

end Revision
