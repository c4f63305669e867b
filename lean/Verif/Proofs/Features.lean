import Verif.Proofs.Alike
import Verif.Spec.Features

/-! # Lemmas on `specialised-vectors` (for `Props/Features`) -/

namespace Revision

variable {ι : Type}

theorem encSeq_congr {fw sp sp' : Bool} {e e' : α → Res Bytes} (h : e = e') :
    encSeq ⟨fw, sp⟩ e = encSeq ⟨fw, sp'⟩ e' := by
  subst h; rfl

theorem bulk_fixed {fw sp : Bool} {k : IntTy} (hk : k = .u16 ∨ k = .u32 ∨ k = .u64 ∨ k = .u128) (hf : fw = true)
    (l : List (BitVec k.bits)) :
    Res.ok (encLen ⟨fw, sp⟩ l.length ++ l.flatMap fun v => leBytes (k.bits / 8) v.toNat) =
      encSeq ⟨fw, sp⟩ (fun v => .ok (encInt ⟨fw, sp⟩ k v)) l := by
  subst hf
  rw [encSeq_ok]
  rcases hk with rfl | rfl | rfl | rfl <;> rfl

/-- A `Vec` whose elements are not reshaped is written element by element. -/
theorem vec_enc_steady {cfg : Cfg} {E : Env ι} {t : Ty ι} (h : t.reshaped cfg.fixedWidth = false) (l : List (t.denote E.X)) :
    (Ty.codec cfg E (.vec t)).enc l = encSeq cfg (t.codec cfg E).enc l := by
  by_cases hp : t.Packed
  · cases t <;> try exact absurd hp id
    · simp [Ty.reshaped] at h
    · rename_i k
      cases hs : cfg.specialised
      · exact vec_enc (.inl hs) l
      · obtain ⟨fw, sp⟩ := cfg
        cases hs
        cases k <;> simp only [Ty.reshaped, Bool.not_eq_false', reduceCtorEq] at h <;> first
          | exact bulk_fixed (by decide) h l
          | exact absurd hp (by simp [Ty.Packed, IntTy.bits])
  · exact vec_enc (.inr hp) l

/-- The bytes of a type without reshaped vectors do not depend on the feature. -/
theorem Ty.enc_steady {fw sp sp' : Bool} {E : Env ι} {c' : (i : ι) → Codec (E.X i)}
    (hx : ∀ i, (E.extC i).enc = (c' i).enc) (t : Ty ι) (ht : t.steady fw = true) :
    (t.codec ⟨fw, sp⟩ E).enc = (t.codec ⟨fw, sp'⟩ { E with extC := c' }).enc := by
  induction t with
  | unit | bool | int | float | char | string | path | bytes | uuid | duration | systemTime | notNan => rfl
  | ext i => exact hx i
  | option t ih =>
    funext v
    cases v with
    | none => rfl
    | some a => exact congrArg (fun r : Res Bytes => do let b ← r; pure (encInt ⟨fw, sp⟩ .u8 1 ++ b)) (congrFun (ih ht) a)
  | result t e ih ih' =>
    simp only [steady, Bool.and_eq_true] at ht
    funext v
    cases v with
    | ok a => exact congrArg (fun r : Res Bytes => do let b ← r; pure (encU32 ⟨fw, sp⟩ 0 ++ b)) (congrFun (ih ht.1) a)
    | error a => exact congrArg (fun r : Res Bytes => do let b ← r; pure (encU32 ⟨fw, sp⟩ 1 ++ b)) (congrFun (ih' ht.2) a)
  | bound t ih =>
    funext v
    cases v with
    | unbounded => rfl
    | included a => exact congrArg (fun r : Res Bytes => do let b ← r; pure (encU32 ⟨fw, sp⟩ 1 ++ b)) (congrFun (ih ht) a)
    | excluded a => exact congrArg (fun r : Res Bytes => do let b ← r; pure (encU32 ⟨fw, sp⟩ 2 ++ b)) (congrFun (ih ht) a)
  | wrap t ih => exact ih ht
  | pair s t ih ih' =>
    simp only [steady, Bool.and_eq_true] at ht
    funext v
    exact pair_enc (congrFun (ih ht.1) _) (congrFun (ih' ht.2) _)
  | array n t ih =>
    funext l
    exact congrArg (fun e => encList e l) (ih ht)
  | vec t ih =>
    simp only [steady, Bool.and_eq_true, Bool.not_eq_true'] at ht
    funext l
    rw [vec_enc_steady (cfg := ⟨fw, sp⟩) ht.1 l]
    refine (congrFun (encSeq_congr (sp' := sp') (ih ht.2)) l).trans ?_
    exact (vec_enc_steady (cfg := ⟨fw, sp'⟩) (E := { E with extC := c' }) ht.1 l).symm
  | btreeMap k v ih ih' | hashMap k v ih ih' =>
    simp only [steady, Bool.and_eq_true] at ht
    refine encSeq_congr ?_
    funext p
    exact pair_enc (congrFun (ih ht.1) _) (congrFun (ih' ht.2) _)
  | btreeSet t ih | hashSet t ih | binaryHeap t ih | vector t ih => exact encSeq_congr (ih ht)

/-! ## The other direction: a value whose bytes depend on the feature -/

theorem encPair_ok' {a : Codec α} {b : Codec β} {v : α} {w : β} {x y : Bytes} (h : a.enc v = .ok x) (h' : b.enc w = .ok y) :
    (pairC a b).enc (v, w) = .ok (x ++ y) := by
  show (do let x ← a.enc v; let y ← b.enc w; pure (x ++ y) : Res Bytes) = _
  rw [h, h']; rfl

theorem encList_cons_ok {e : α → Res Bytes} {v : α} {l : List α} {b c : Bytes} (h : e v = .ok b) (hl : encList e l = .ok c) :
    encList e (v :: l) = .ok (b ++ c) := by
  show (do let x ← e v; let y ← encList e l; pure (x ++ y) : Res Bytes) = _
  rw [h, hl]; rfl

theorem encList_replicate {e : α → Res Bytes} {v : α} {b : Bytes} (h : e v = .ok b) :
    ∀ n, encList e (List.replicate n v) = .ok (List.replicate n b).flatten
  | 0 => rfl
  | n + 1 => by
    show (do let x ← e v; let y ← encList e (List.replicate n v); pure (x ++ y) : Res Bytes) = _
    rw [h, encList_replicate h n]; rfl

/-- Every type has a value that is written the same way with and without the feature. -/
theorem Ty.sample (fw : Bool) (E : Env ι) (hx : ∀ i, ∃ x b, (E.extC i).valid x ∧ (E.extC i).enc x = .ok b) (t : Ty ι) :
    ∃ v, t.WF E v ∧ ∃ b, ∀ sp, (t.codec ⟨fw, sp⟩ E).enc v = .ok b := by
  induction t with
  | unit => exact ⟨(), trivial, _, fun _ => rfl⟩
  | bool => exact ⟨false, trivial, _, fun _ => rfl⟩
  | int k => exact ⟨0, trivial, encInt ⟨fw, true⟩ k 0, fun _ => rfl⟩
  | float f => exact ⟨0, trivial, _, fun _ => rfl⟩
  | char => exact ⟨'a', trivial, _, fun _ => rfl⟩
  | string => exact ⟨"", trivial, encLen ⟨fw, true⟩ 0 ++ [], fun _ => rfl⟩
  | path => exact ⟨[], ⟨"", rfl⟩, encLen ⟨fw, true⟩ 0 ++ [], fun _ => rfl⟩
  | bytes => exact ⟨[], trivial, encLen ⟨fw, true⟩ 0 ++ [], fun _ => rfl⟩
  | uuid => exact ⟨0, trivial, _, fun _ => rfl⟩
  | duration => exact ⟨(0, 0), (by decide : (0 : BitVec 32).toNat < 1000000000), encInt ⟨fw, true⟩ .u64 0 ++ encInt ⟨fw, true⟩ .u32 0,
      fun _ => rfl⟩
  | systemTime => exact ⟨(0, 0), (by decide : 0 ≤ (0 : BitVec 64).toInt ∧ (0 : BitVec 32).toNat < 1000000000),
      encInt ⟨fw, true⟩ .u64 0 ++ encInt ⟨fw, true⟩ .u32 0, fun _ => rfl⟩
  | notNan f =>
    cases f
    · exact ⟨0, (by simp [FloatTy.IsNaN] : ¬ FloatTy.f32.IsNaN 0), _, fun _ => rfl⟩
    · exact ⟨0, (by simp [FloatTy.IsNaN] : ¬ FloatTy.f64.IsNaN 0), _, fun _ => rfl⟩
  | ext i =>
    obtain ⟨x, b, hv, hb⟩ := hx i
    exact ⟨x, hv, b, fun _ => hb⟩
  | option t => exact ⟨none, nofun, _, fun _ => rfl⟩
  | bound t => exact ⟨.unbounded, fun a h => h.elim nofun nofun, encU32 ⟨fw, true⟩ 0, fun _ => rfl⟩
  | wrap t ih => exact ih
  | result t e ih =>
    obtain ⟨v, hw, b, hb⟩ := ih
    refine ⟨.ok v, ⟨fun a h => by cases h; exact hw, nofun⟩, encU32 ⟨fw, true⟩ 0 ++ b, fun sp => ?_⟩
    exact congrArg (fun r : Res Bytes => do let b ← r; pure (encU32 ⟨fw, sp⟩ 0 ++ b)) (hb sp)
  | pair s t ih ih' =>
    obtain ⟨v, hw, b, hb⟩ := ih
    obtain ⟨v', hw', b', hb'⟩ := ih'
    exact ⟨(v, v'), ⟨hw, hw'⟩, b ++ b', fun sp => encPair_ok' (hb sp) (hb' sp)⟩
  | array n t ih =>
    obtain ⟨v, hw, b, hb⟩ := ih
    refine ⟨List.replicate n v, ⟨List.length_replicate, fun a ha => ?_⟩, (List.replicate n b).flatten, fun sp => ?_⟩
    · rw [(List.mem_replicate.1 ha).2]; exact hw
    · exact encList_replicate (hb sp) n
  | vec t =>
    refine ⟨[], nofun, encLen ⟨fw, true⟩ 0 ++ [], fun sp => ?_⟩
    cases t <;> cases sp <;> try rfl
    · exact congrArg Res.ok (congrArg (_ ++ ·) (by decide +kernel : packBools (divCeil8 0) [] = []))
    · rename_i k _
      cases k <;> rfl
  | btreeMap | hashMap => exact ⟨[], ⟨nofun, .nil⟩, encLen ⟨fw, true⟩ 0 ++ [], fun _ => rfl⟩
  | btreeSet | hashSet => exact ⟨[], ⟨nofun, .nil⟩, encLen ⟨fw, true⟩ 0 ++ [], fun _ => rfl⟩
  | binaryHeap => exact ⟨[], ⟨nofun, nofun⟩, encLen ⟨fw, true⟩ 0 ++ [], fun _ => rfl⟩
  | vector => exact ⟨[], nofun, encLen ⟨fw, true⟩ 0 ++ [], fun _ => rfl⟩

/-- Written in different ways with and without the feature. -/
def Ty.Differs (fw : Bool) (E : Env ι) (t : Ty ι) (v : t.denote E.X) : Prop :=
  t.WF E v ∧ ∃ b b', b ≠ b' ∧ (t.codec ⟨fw, true⟩ E).enc v = .ok b ∧ (t.codec ⟨fw, false⟩ E).enc v = .ok b'

theorem Ty.differs (fw : Bool) (E : Env ι) (hx : ∀ i, ∃ x b, (E.extC i).valid x ∧ (E.extC i).enc x = .ok b) (t : Ty ι)
    (ha : t.arraysFull = true) (h : t.steady fw = false) : ∃ v, t.Differs fw E v := by
  have single : ∀ {e : Ty ι} {v : e.denote E.X}, e.Differs fw E v → ∃ b b', b ≠ b' ∧
      encSeq ⟨fw, true⟩ (e.codec ⟨fw, true⟩ E).enc [v] = .ok b ∧ encSeq ⟨fw, false⟩ (e.codec ⟨fw, false⟩ E).enc [v] = .ok b' := by
    intro e v ⟨_, b, b', hne, hb, hb'⟩
    refine ⟨encLen ⟨fw, true⟩ 1 ++ (b ++ []), encLen ⟨fw, true⟩ 1 ++ (b' ++ []), by simpa using hne, ?_, ?_⟩
    · unfold encSeq encList encList; rw [hb]; rfl
    · unfold encSeq encList encList; rw [hb']; rfl
  induction t with
  | unit | bool | int | float | char | string | path | bytes | uuid | duration | systemTime | notNan | ext =>
    exact absurd h (by simp [steady])
  | option t ih =>
    obtain ⟨v, hw, b, b', hne, hb, hb'⟩ := ih ha h
    refine ⟨some v, fun a e => by cases e; exact hw, encInt ⟨fw, true⟩ .u8 1 ++ b, encInt ⟨fw, true⟩ .u8 1 ++ b', by simpa using hne, ?_, ?_⟩
    · exact congrArg (fun r : Res Bytes => do let b ← r; pure (encInt ⟨fw, true⟩ .u8 1 ++ b)) hb
    · exact congrArg (fun r : Res Bytes => do let b ← r; pure (encInt ⟨fw, false⟩ .u8 1 ++ b)) hb'
  | bound t ih =>
    obtain ⟨v, hw, b, b', hne, hb, hb'⟩ := ih ha h
    refine ⟨.included v, fun a e => by rcases e with e | e <;> cases e; exact hw, encU32 ⟨fw, true⟩ 1 ++ b,
      encU32 ⟨fw, true⟩ 1 ++ b', by simpa using hne, ?_, ?_⟩
    · exact congrArg (fun r : Res Bytes => do let b ← r; pure (encU32 ⟨fw, true⟩ 1 ++ b)) hb
    · exact congrArg (fun r : Res Bytes => do let b ← r; pure (encU32 ⟨fw, false⟩ 1 ++ b)) hb'
  | wrap t ih => exact ih ha h
  | result t e ih ih' =>
    simp only [arraysFull, Bool.and_eq_true] at ha
    simp only [steady, Bool.and_eq_false_iff] at h
    rcases h with h | h
    · obtain ⟨v, hw, b, b', hne, hb, hb'⟩ := ih ha.1 h
      refine ⟨.ok v, ⟨fun a e => by cases e; exact hw, nofun⟩, encU32 ⟨fw, true⟩ 0 ++ b,
        encU32 ⟨fw, true⟩ 0 ++ b', by simpa using hne, ?_, ?_⟩
      · exact congrArg (fun r : Res Bytes => do let b ← r; pure (encU32 ⟨fw, true⟩ 0 ++ b)) hb
      · exact congrArg (fun r : Res Bytes => do let b ← r; pure (encU32 ⟨fw, false⟩ 0 ++ b)) hb'
    · obtain ⟨v, hw, b, b', hne, hb, hb'⟩ := ih' ha.2 h
      refine ⟨.error v, ⟨nofun, fun a e => by cases e; exact hw⟩, encU32 ⟨fw, true⟩ 1 ++ b,
        encU32 ⟨fw, true⟩ 1 ++ b', by simpa using hne, ?_, ?_⟩
      · exact congrArg (fun r : Res Bytes => do let b ← r; pure (encU32 ⟨fw, true⟩ 1 ++ b)) hb
      · exact congrArg (fun r : Res Bytes => do let b ← r; pure (encU32 ⟨fw, false⟩ 1 ++ b)) hb'
  | pair s t ih ih' =>
    simp only [arraysFull, Bool.and_eq_true] at ha
    simp only [steady, Bool.and_eq_false_iff] at h
    rcases h with h | h
    · obtain ⟨v, hw, b, b', hne, hb, hb'⟩ := ih ha.1 h
      obtain ⟨x, hx, c, hc⟩ := t.sample fw E hx
      exact ⟨(v, x), ⟨hw, hx⟩, b ++ c, b' ++ c, by simpa using hne, encPair_ok' hb (hc _), encPair_ok' hb' (hc _)⟩
    · obtain ⟨v, hw, b, b', hne, hb, hb'⟩ := ih' ha.2 h
      obtain ⟨x, hx, c, hc⟩ := s.sample fw E hx
      exact ⟨(x, v), ⟨hx, hw⟩, c ++ b, c ++ b', by simpa using hne, encPair_ok' (hc _) hb, encPair_ok' (hc _) hb'⟩
  | array n t ih =>
    simp only [arraysFull, Bool.and_eq_true, bne_iff_ne] at ha
    obtain ⟨v, hw, b, b', hne, hb, hb'⟩ := ih ha.2 h
    obtain ⟨x, hx, c, hc⟩ := t.sample fw E hx
    obtain ⟨m, rfl⟩ := Nat.exists_eq_succ_of_ne_zero ha.1
    refine ⟨v :: List.replicate m x, ⟨by simp, fun a h => ?_⟩, b ++ (List.replicate m c).flatten,
      b' ++ (List.replicate m c).flatten, by simpa using hne, ?_, ?_⟩
    · rcases List.mem_cons.1 h with rfl | h
      · exact hw
      · rw [(List.mem_replicate.1 h).2]; exact hx
    · exact encList_cons_ok hb (encList_replicate (hc true) m)
    · exact encList_cons_ok hb' (encList_replicate (hc false) m)
  | vec t ih =>
    cases hr : t.reshaped fw with
    | true =>
      have num : ∀ (k : IntTy) (v : BitVec k.bits), (k != .usize && k != .isize) = true →
          leBytes (k.bits / 8) v.toNat ++ [] ≠ encInt ⟨fw, false⟩ k v ++ [] →
          ∃ l, (Ty.vec (.int k)).Differs fw E l := by
        intro k v hk hne
        refine ⟨[v], fun _ _ => trivial, encLen ⟨fw, true⟩ 1 ++ (leBytes (k.bits / 8) v.toNat ++ []),
          encLen ⟨fw, true⟩ 1 ++ (encInt ⟨fw, false⟩ k v ++ []), by simpa using hne, ?_, rfl⟩
        rw [Ty.codec, vecOf, Bool.true_and, if_pos hk]
        rfl
      cases t <;> try (simp only [reshaped, Bool.false_eq_true] at hr; done)
      · exact ⟨[true, true], fun _ _ => trivial, encLen ⟨fw, true⟩ 2 ++ [3], encLen ⟨fw, true⟩ 2 ++ [1, 1], by simp,
          congrArg Res.ok (congrArg (_ ++ ·) (by decide +kernel : packBools (divCeil8 2) [true, true] = [3])), rfl⟩
      · rename_i k
        cases k <;> try (simp only [reshaped, Bool.false_eq_true] at hr; done)
        all_goals first
          | (simp only [reshaped, Bool.not_eq_true'] at hr
             subst hr
             exact num _ 5 rfl (by decide +kernel))
          | (refine num _ 1 rfl ?_
             cases fw <;> decide +kernel)
    | false =>
      obtain ⟨v, d⟩ := ih ha (by simpa [steady, hr] using h)
      obtain ⟨b, b', hne, hb, hb'⟩ := single d
      refine ⟨[v], fun a h => by cases List.mem_singleton.1 h; exact d.1, b, b', hne, ?_, ?_⟩
      · rw [vec_enc_steady (cfg := ⟨fw, true⟩) hr]; exact hb
      · rw [vec_enc_steady (cfg := ⟨fw, false⟩) hr]; exact hb'
  | btreeMap k v ih ih' | hashMap k v ih ih' =>
    simp only [arraysFull, Bool.and_eq_true] at ha
    simp only [steady, Bool.and_eq_false_iff] at h
    have d : ∃ p, (Ty.pair k v).Differs fw E p := by
      rcases h with h | h
      · obtain ⟨v, hw, b, b', hne, hb, hb'⟩ := ih ha.1 h
        obtain ⟨x, hx, c, hc⟩ := Ty.sample fw E hx _
        exact ⟨(v, x), ⟨hw, hx⟩, b ++ c, b' ++ c, by simpa using hne, encPair_ok' hb (hc _), encPair_ok' hb' (hc _)⟩
      · obtain ⟨v, hw, b, b', hne, hb, hb'⟩ := ih' ha.2 h
        obtain ⟨x, hx, c, hc⟩ := Ty.sample fw E hx _
        exact ⟨(x, v), ⟨hx, hw⟩, c ++ b, c ++ b', by simpa using hne, encPair_ok' (hc _) hb, encPair_ok' (hc _) hb'⟩
    obtain ⟨p, d⟩ := d
    obtain ⟨b, b', hne, hb, hb'⟩ := single d
    exact ⟨[p], ⟨fun a h => by cases List.mem_singleton.1 h; exact d.1, .cons nofun .nil⟩, b, b', hne, hb, hb'⟩
  | btreeSet t ih | hashSet t ih =>
    obtain ⟨v, d⟩ := ih ha h
    obtain ⟨b, b', hne, hb, hb'⟩ := single d
    exact ⟨[v], ⟨fun a h => by cases List.mem_singleton.1 h; exact d.1, .cons nofun .nil⟩, b, b', hne, hb, hb'⟩
  | binaryHeap t ih =>
    obtain ⟨v, d⟩ := ih ha h
    obtain ⟨b, b', hne, hb, hb'⟩ := single d
    exact ⟨[v], ⟨fun a h => by cases List.mem_singleton.1 h; exact d.1, fun i h1 h2 => by simp at h1; omega⟩, b, b', hne, hb, hb'⟩
  | vector t ih =>
    obtain ⟨v, d⟩ := ih ha h
    obtain ⟨b, b', hne, hb, hb'⟩ := single d
    exact ⟨[v], fun a h => by cases List.mem_singleton.1 h; exact d.1, b, b', hne, hb, hb'⟩

/-! ## Derived types -/

section
variable {V φ ψ : Type}

theorem serializeFields_pair {d d' : φ → FieldDecl V} {enc enc' : FieldDecl V → V → Res Bytes} {r : Nat} :
    ∀ (fs : List φ), (∀ f ∈ fs, (d f).opts = (d' f).opts) →
      (∀ f ∈ fs, (d f).existsAt r = true → enc (d f) = enc' (d' f)) → ∀ vs,
      serializeFields enc r (fs.map d) vs = serializeFields enc' r (fs.map d') vs
  | [], _, _, _ => rfl
  | f :: fs, ho, he, vs => by
    have h1 : (d' f).existsAt r = (d f).existsAt r := by
      unfold FieldDecl.existsAt; rw [ho f (List.mem_cons_self ..)]
    have ih := serializeFields_pair fs (fun g hg => ho g (List.mem_cons_of_mem _ hg))
      (fun g hg => he g (List.mem_cons_of_mem _ hg))
    simp only [List.map_cons, serializeFields, h1]
    cases hx : (d f).existsAt r with
    | false => simpa using ih vs
    | true =>
      cases vs with
      | nil => rfl
      | cons v vs => simp only [if_true, he f (List.mem_cons_self ..) hx, ih]

theorem serializeIndexedFields_pair {d d' : φ → FieldDecl V} {enc enc' : FieldDecl V → V → Res Bytes} {r : Nat} :
    ∀ (fs : List φ), (∀ f ∈ fs, (d f).opts = (d' f).opts) →
      (∀ f ∈ fs, (d f).existsAt r = true → enc (d f) = enc' (d' f)) → ∀ vs pos,
      serializeIndexedFields enc r (fs.map d) vs pos = serializeIndexedFields enc' r (fs.map d') vs pos
  | [], _, _, _, _ => rfl
  | f :: fs, ho, he, vs, pos => by
    have h1 : (d' f).existsAt r = (d f).existsAt r := by
      unfold FieldDecl.existsAt; rw [ho f (List.mem_cons_self ..)]
    have ih := serializeIndexedFields_pair fs (fun g hg => ho g (List.mem_cons_of_mem _ hg))
      (fun g hg => he g (List.mem_cons_of_mem _ hg))
    simp only [List.map_cons, serializeIndexedFields, h1]
    cases hx : (d f).existsAt r with
    | false => simpa using ih vs pos
    | true =>
      cases vs with
      | nil => rfl
      | cons v vs => simp only [if_true, he f (List.mem_cons_self ..) hx, ih]

theorem aliveCount_pair {d d' : φ → FieldDecl V} {r : Nat} (fs : List φ) (ho : ∀ f ∈ fs, (d f).opts = (d' f).opts) :
    aliveCount (fs.map d) r = aliveCount (fs.map d') r := by
  unfold aliveCount
  induction fs with
  | nil => rfl
  | cons f fs ih =>
    have h1 : (d' f).existsAt r = (d f).existsAt r := by
      unfold FieldDecl.existsAt; rw [ho f (List.mem_cons_self ..)]
    have := ih fun g hg => ho g (List.mem_cons_of_mem _ hg)
    simp only [List.map_cons, List.filter_cons, h1]
    split <;> simp [this]

theorem serializeStructBody_pair {d d' : φ → FieldDecl V} {e : Entry} (fs : List φ)
    (ho : ∀ f ∈ fs, (d f).opts = (d' f).opts)
    (he : ∀ f ∈ fs, (d f).existsAt e.revision = true → ((d f).wire e).enc = ((d' f).wire e).enc) (vs : List V) :
    serializeStructBody e (fs.map d) vs = serializeStructBody e (fs.map d') vs := by
  unfold serializeStructBody
  simp only [serializeFields_pair (enc := fun f v => (f.wire e).enc v) (enc' := fun f v => (f.wire e).enc v) fs ho he vs,
    serializeIndexedFields_pair (enc := fun f v => (f.wire e).enc v) (enc' := fun f v => (f.wire e).enc v) fs ho he vs,
    aliveCount_pair fs ho]

theorem variantArms_pair {e e' : ψ → VariantDecl V} (vs : List ψ) (h : ∀ v ∈ vs, (e v).sig = (e' v).sig) (r : Nat) :
    ∃ l : List (Nat × ψ), (∀ a ∈ l, a.2 ∈ vs) ∧ variantArms (vs.map e) r = l.map (fun a => (a.1, e a.2)) ∧
      variantArms (vs.map e') r = l.map (fun a => (a.1, e' a.2)) := by
  have hd : discsAt (vs.map e) r = discsAt (vs.map e') r := by
    unfold discsAt
    have : (vs.map e).map VariantDecl.sig = (vs.map e').map VariantDecl.sig := by
      rw [List.map_map, List.map_map]
      exact List.map_congr_left h
    rw [this]
  unfold variantArms
  rw [hd]
  generalize discsAt (vs.map e') r = D
  have : ∀ us : List ψ, (∀ v ∈ us, v ∈ vs) → ∃ l : List (Nat × ψ), (∀ a ∈ l, a.2 ∈ vs) ∧
      ((us.map e).filter (·.existsAt r)).filterMap (fun v => (D.lookup v.ident).map (·, v)) =
        l.map (fun a => (a.1, e a.2)) ∧
      ((us.map e').filter (·.existsAt r)).filterMap (fun v => (D.lookup v.ident).map (·, v)) =
        l.map (fun a => (a.1, e' a.2)) := by
    intro us
    induction us with
    | nil => exact fun _ => ⟨[], by simp, rfl, rfl⟩
    | cons v us ih =>
      intro hus
      obtain ⟨l, h1, h2, h3⟩ := ih fun w hw => hus w (List.mem_cons_of_mem _ hw)
      have hv := h v (hus v List.mem_cons_self)
      have hi : (e v).ident = (e' v).ident := congrArg VariantSig.ident hv
      have hx : (e v).existsAt r = (e' v).existsAt r := by
        have : (e v).opts = (e' v).opts := congrArg VariantSig.opts hv
        unfold VariantDecl.existsAt; rw [this]
      simp only [List.map_cons, List.filter_cons, hx]
      split
      · simp only [List.filterMap_cons, hi]
        cases D.lookup (e' v).ident with
        | none => exact ⟨l, h1, h2, h3⟩
        | some x =>
          refine ⟨(x, v) :: l, ?_, by simp [h2], by simp [h3]⟩
          intro a ha
          rcases List.mem_cons.1 ha with rfl | ha
          · exact hus v List.mem_cons_self
          · exact h1 a ha
      · exact ⟨l, h1, h2, h3⟩
  exact this vs fun v hv => hv

end

section
variable {K : ι → Kind} [DecidableEq ι]

theorem dynC_enc_congr {E : Env ι} (t : Ty ι) {c : Codec (t.denote E.X)} {c' : Codec (t.denote E.X)} (h : c.enc = c'.enc) :
    (dynC (E := E) t c).enc = (dynC t c').enc := by
  funext v
  unfold dynC Codec.embed
  rw [h]

variable {fw sp sp' : Bool} {E : Env ι} {c' : (i : ι) → Codec (E.X i)}

theorem fixedOf_steady (hx : ∀ i, (E.extC i).enc = (c' i).enc) (t : Ty ι) (ht : t.steady fw = true) :
    (fixedOf ⟨fw, sp⟩ E t).enc = (fixedOf ⟨fw, sp'⟩ { E with extC := c' } t).enc := by
  cases t with
  | int k => cases k <;> rfl
  | unit => rfl
  | _ => exact Ty.enc_steady (sp := sp) (sp' := sp') hx _ ht

theorem bulkOf_steady (hx : ∀ i, (E.extC i).enc = (c' i).enc) (t : Ty ι)
    (ht : t.steady fw = true ∨ ∃ e, t = .vec e ∧ e.steady fw = true) :
    (bulkOf ⟨fw, sp⟩ E t).enc = (bulkOf ⟨fw, sp'⟩ { E with extC := c' } t).enc := by
  by_cases hv : ∃ e, t = .vec e ∧ e.steady fw = true
  · obtain ⟨e, rfl, he⟩ := hv
    have h := Ty.enc_steady (sp := sp) (sp' := sp') hx e he
    have hs : ∀ {α} (cap : Nat → Bool) (c d : Codec α), c.enc = d.enc →
        (vecC ⟨fw, true⟩ cap c).enc = (vecC ⟨fw, true⟩ cap d).enc := by
      intro α cap c d h
      unfold vecC
      simp only [h]
    cases e <;> try exact hs _ _ _ h
    · rfl
    · rename_i k
      cases k <;> first | rfl | exact hs _ _ _ h
    · rfl
    · rfl
  · rcases ht with ht | ht
    · cases t with
      | vec e =>
        refine absurd ⟨e, rfl, ?_⟩ hv
        simp only [Ty.steady, Bool.and_eq_true] at ht
        exact ht.2
      | unit => rfl
      | _ => exact Ty.enc_steady (sp := sp) (sp' := sp') hx _ ht
    · exact absurd ht hv

omit [DecidableEq ι] in
theorem steadyParts_of_steady (t : Ty ι) (h : t.steady fw = true) : t.steadyParts fw = true := by
  cases t <;> simp only [Ty.steady, Ty.steadyParts, Bool.and_eq_true] at h ⊢ <;> first | exact h | exact h.2

theorem indexedOf_steady (hx : ∀ i, (E.extC i).enc = (c' i).enc) (t : Ty ι) (ht : t.steadyParts fw = true) :
    (indexedOf ⟨fw, sp⟩ E t).enc = (indexedOf ⟨fw, sp'⟩ { E with extC := c' } t).enc := by
  cases t with
  | unit => rfl
  | vec t | vector t => exact congrArg (fun e => serializeIndexedSeq e) (Ty.enc_steady (sp := sp) (sp' := sp') hx t ht)
  | btreeSet t | hashSet t => exact congrArg (fun e => serializeIndexedSet e) (Ty.enc_steady (sp := sp) (sp' := sp') hx t ht)
  | btreeMap k v | hashMap k v =>
    simp only [Ty.steadyParts, Bool.and_eq_true] at ht
    have h1 := Ty.enc_steady (sp := sp) (sp' := sp') hx _ ht.1
    have h2 := Ty.enc_steady (sp := sp) (sp' := sp') hx _ ht.2
    show serializeIndexedEntries _ _ = serializeIndexedEntries _ _
    rw [h1, h2]
  | _ => exact Ty.enc_steady (sp := sp) (sp' := sp') hx _ ht

end

section
variable {K : ι → Kind} [DecidableEq ι] {fw sp sp' : Bool} {I : Impls K} {n : Nat} {c c' : (i : ι) → Codec (Values K n i)}

theorem Field.legacy_steady (hx : ∀ i, (c i).enc = (c' i).enc) {f : Field K} {e : Entry} (ho : e.optimised = false) {b : Bool}
    (hf : f.Steady fw e b) :
    (f.decl ⟨fw, sp⟩ I n c).legacyC.enc = (f.decl ⟨fw, sp'⟩ I n c').legacyC.enc := by
  have hx' : ∀ i, ((I.env n c).extC i).enc = (c' i).enc := hx
  unfold FieldDecl.legacyC
  show (if f.opts.fixed = true then _ else if f.opts.specialised = true then _ else _ : Codec _).enc =
    (if f.opts.fixed = true then _ else if f.opts.specialised = true then _ else _ : Codec _).enc
  rcases hf with h | ⟨_, hs, hn, t, ht, h⟩ | ⟨h, _⟩
  · split
    · exact dynC_enc_congr f.ty (fixedOf_steady hx' f.ty h)
    · split
      · exact dynC_enc_congr f.ty (bulkOf_steady hx' f.ty (.inl h))
      · exact dynC_enc_congr f.ty (Ty.enc_steady hx' f.ty h)
  · rw [hn, hs]
    exact dynC_enc_congr f.ty (bulkOf_steady hx' f.ty (.inr ⟨t, ht, h⟩))
  · rw [ho] at h; cases h

theorem Field.wire_steady (hx : ∀ i, (c i).enc = (c' i).enc) {f : Field K} {e : Entry} (hf : f.Steady fw e true) :
    ((f.decl ⟨fw, sp⟩ I n c).wire e).enc = ((f.decl ⟨fw, sp'⟩ I n c').wire e).enc := by
  have hx' : ∀ i, ((I.env n c).extC i).enc = (c' i).enc := hx
  unfold FieldDecl.wire
  cases ho : e.optimised with
  | false => exact Field.legacy_steady hx ho hf
  | true =>
    show (if (f.opts.indexedMap || f.opts.indexedSeq || f.opts.indexedSet) = true then _ else _ : Codec _).enc =
      (if (f.opts.indexedMap || f.opts.indexedSeq || f.opts.indexedSet) = true then _ else _ : Codec _).enc
    rcases hf with h | ⟨h, _⟩ | ⟨_, _, hi, h⟩
    · split
      · exact dynC_enc_congr f.ty (indexedOf_steady hx' f.ty (steadyParts_of_steady _ h))
      · exact dynC_enc_congr f.ty (Ty.enc_steady hx' f.ty h)
    · rw [ho] at h; cases h
    · rw [if_pos hi, if_pos hi]
      exact dynC_enc_congr f.ty (indexedOf_steady hx' f.ty h)

theorem Field.variantWire_steady (hx : ∀ i, (c i).enc = (c' i).enc) {f : Field K} {e : Entry} (hf : f.Steady fw e false) :
    ((f.decl ⟨fw, sp⟩ I n c).variantWire e).enc = ((f.decl ⟨fw, sp'⟩ I n c').variantWire e).enc := by
  have hx' : ∀ i, ((I.env n c).extC i).enc = (c' i).enc := hx
  unfold FieldDecl.variantWire
  cases ho : e.optimised with
  | false => exact Field.legacy_steady hx ho hf
  | true =>
    rcases hf with h | ⟨h, _⟩ | ⟨_, h, _⟩
    · exact dynC_enc_congr f.ty (Ty.enc_steady hx' f.ty h)
    · rw [ho] at h; cases h
    · cases h

theorem Variant.sig_steady (v : Variant K) :
    (v.decl ⟨fw, sp⟩ I n c).sig = (v.decl ⟨fw, sp'⟩ I n c').sig := by
  unfold VariantDecl.sig Variant.decl
  simp only [List.map_map, VariantSig.mk.injEq, true_and]
  rfl

theorem Body.enc_steady (hx : ∀ i, (c i).enc = (c' i).enc) {h : List Entry} {k : Kind} (B : Body K k) (hB : B.Steady fw h) :
    (B.codec ⟨fw, sp⟩ I n c h).enc = (B.codec ⟨fw, sp'⟩ I n c' h).enc := by
  cases B with
  | struct fs =>
    funext vs
    have := serializeStructBody_pair (d := fun f : Field K => f.decl ⟨fw, sp⟩ I n c)
        (d' := fun f => f.decl ⟨fw, sp'⟩ I n c') (e := lastEntry h) fs
      (fun _ _ => rfl) (fun f hf he => Field.wire_steady hx (hB f hf he)) vs
    exact congrArg (fun r : Res Bytes => do let b ← r; pure (encU16 ⟨fw, sp⟩ (latest h) ++ b)) this
  | enum us =>
    funext x
    refine congrArg (fun r : Res Bytes => do let b ← r; pure (encU16 ⟨fw, sp⟩ (latest h) ++ b)) ?_
    obtain ⟨l, hl, h1, h2⟩ := variantArms_pair (e := (·.decl ⟨fw, sp⟩ I n c)) (e' := (·.decl ⟨fw, sp'⟩ I n c')) us
      (fun v _ => v.sig_steady) (lastEntry h).revision
    unfold serializeEnumBody
    rw [h1, h2, List.find?_map, List.find?_map]
    have hp : ((fun a : Nat × VariantDecl (DynAt K n) => a.2.ident == x.variant) ∘
        fun a : Nat × Variant K => (a.1, a.2.decl ⟨fw, sp⟩ I n c)) = fun a => a.2.ident == x.variant := rfl
    have hp' : ((fun a : Nat × VariantDecl (DynAt K n) => a.2.ident == x.variant) ∘
        fun a : Nat × Variant K => (a.1, a.2.decl ⟨fw, sp'⟩ I n c')) = fun a => a.2.ident == x.variant := rfl
    rw [hp, hp']
    cases ha : l.find? (fun a => a.2.ident == x.variant) with
    | none => rfl
    | some a =>
      have hm := hl a (List.mem_of_find?_eq_some ha)
      have := serializeFields_pair (d := fun f : Field K => f.decl ⟨fw, sp⟩ I n c)
        (d' := fun f => f.decl ⟨fw, sp'⟩ I n c')
        (enc := fun f w => (f.variantWire (lastEntry h)).enc w) (enc' := fun f w => (f.variantWire (lastEntry h)).enc w)
        (r := (lastEntry h).revision) a.2.fields (fun _ _ => rfl)
        (fun f hf he => Field.variantWire_steady hx (hB a.2 hm f hf he)) x.fields
      simp only [Option.map_some, Variant.decl]
      rw [this]
      rfl
  | foreign x => rfl

end

theorem Program.enc_steady [DecidableEq ι] {fw sp sp' : Bool} (P : Program ι) (I : Impls P.kind) (hP : P.Steady fw) :
    ∀ n i, (P.codec ⟨fw, sp⟩ I n i).enc = (P.codec ⟨fw, sp'⟩ I n i).enc
  | 0, _ => rfl
  | n + 1, i => Body.enc_steady (Program.enc_steady P I hP n) (P.body i) (hP i)

end Revision
