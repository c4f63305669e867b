import Verif.Spec.Patch
import Verif.Spec.Path
import Verif.Proofs.Alike
import Verif.Proofs.Width
import Verif.Proofs.PatchIndexed
import Verif.Props.Derive
import Verif.Props.DeriveEnum

/-! # Lemmas on replacing one part of a value -/

namespace Revision

/-- The second result is the first with the bytes `b` in one place replaced by `b'`. -/
def Spliced (b b' : Bytes) (r r' : Res Bytes) : Prop := ∀ o, r = .ok o → ∃ p q, o = p ++ b ++ q ∧ r' = .ok (p ++ b' ++ q)

namespace Spliced
variable {b b' : Bytes} {r r' : Res Bytes}

theorem here (h : r = .ok b) (h' : r' = .ok b') : Spliced b b' r r' := by
  intro o ho
  rw [h] at ho
  cases ho
  exact ⟨[], [], by simp, by simpa using h'⟩

theorem around (h : Spliced b b' r r') (a c : Bytes) :
    Spliced b b' (r >>= fun x => pure (a ++ x ++ c)) (r' >>= fun x => pure (a ++ x ++ c)) := by
  intro o ho
  obtain ⟨x, hx, ho⟩ := Res.bind_eq_ok.1 ho
  cases ho
  obtain ⟨p, q, rfl, h'⟩ := h x hx
  refine ⟨a ++ p, q ++ c, by simp only [List.append_assoc], ?_⟩
  rw [h']
  exact congrArg Res.ok (by simp only [List.append_assoc])

theorem pre (h : Spliced b b' r r') (a : Bytes) :
    Spliced b b' (r >>= fun x => pure (a ++ x)) (r' >>= fun x => pure (a ++ x)) := by
  have := h.around a []
  simpa only [List.append_nil] using this

theorem list {α : Type} {enc : α → Res Bytes} {v v' : α} (h : Spliced b b' (enc v) (enc v')) (r : List α) :
    ∀ l, Spliced b b' (encList enc (l ++ v :: r)) (encList enc (l ++ v' :: r))
  | [] => by
    intro o ho
    obtain ⟨x, hx, ho⟩ := Res.bind_eq_ok.1 (show (enc v >>= fun x => encList enc r >>= fun y => pure (x ++ y)) = _ from ho)
    obtain ⟨y, hy, ho⟩ := Res.bind_eq_ok.1 ho
    cases ho
    obtain ⟨p, q, rfl, h'⟩ := h x hx
    refine ⟨p, q ++ y, by simp only [List.append_assoc], ?_⟩
    change (enc v' >>= fun x => encList enc r >>= fun y => pure (x ++ y)) = _
    rw [h', hy]
    exact congrArg Res.ok (by simp only [List.append_assoc])
  | a :: l => by
    intro o ho
    obtain ⟨x, hx, ho⟩ := Res.bind_eq_ok.1 (show (enc a >>= fun x => encList enc (l ++ v :: r) >>= fun y => pure (x ++ y)) = _ from ho)
    obtain ⟨y, hy, ho⟩ := Res.bind_eq_ok.1 ho
    cases ho
    obtain ⟨p, q, rfl, h'⟩ := h.list r l y hy
    refine ⟨x ++ p, q, by simp only [List.append_assoc], ?_⟩
    change (enc a >>= fun x => encList enc (l ++ v' :: r) >>= fun y => pure (x ++ y)) = _
    rw [hx, h']
    exact congrArg Res.ok (by simp only [List.append_assoc])

end Spliced

theorem Ty.Replaced.enc {ι : Type} {cfg : Cfg} {E : Env ι} {b b' : Bytes} {ext : (i : ι) → E.X i → E.X i → Prop}
    {part : (t : Ty ι) → t.denote E.X → t.denote E.X → Prop}
    (he : ∀ i x x', ext i x x' → Spliced b b' ((E.extC i).enc x) ((E.extC i).enc x'))
    (hp : ∀ t v v', part t v v' → Spliced b b' ((t.codec cfg E).enc v) ((t.codec cfg E).enc v'))
    {t : Ty ι} {v v' : t.denote E.X} (h : Ty.Replaced cfg E ext part t v v') :
    Spliced b b' ((t.codec cfg E).enc v) ((t.codec cfg E).enc v') := by
  induction h with
  | part h => exact hp _ _ _ h
  | ext h => exact he _ _ _ h
  | wrap _ ih => exact ih
  | some _ ih => exact ih.pre _
  | ok _ ih => exact ih.pre _
  | error _ ih => exact ih.pre _
  | included _ ih => exact ih.pre _
  | excluded _ ih => exact ih.pre _
  | @fst s t v v' y _ ih =>
    intro o ho
    obtain ⟨x, hx, ho⟩ := Res.bind_eq_ok.1 (show ((s.codec cfg E).enc v >>= fun x => (t.codec cfg E).enc y >>= fun y => pure (x ++ y)) = _ from ho)
    obtain ⟨z, hz, ho⟩ := Res.bind_eq_ok.1 ho
    cases ho
    obtain ⟨p, q, rfl, h'⟩ := ih x hx
    refine ⟨p, q ++ z, by simp only [List.append_assoc], ?_⟩
    change ((s.codec cfg E).enc v' >>= fun x => (t.codec cfg E).enc y >>= fun y => pure (x ++ y)) = _
    rw [h', hz]
    exact congrArg Res.ok (by simp only [List.append_assoc])
  | @snd s t v v' w _ ih =>
    intro o ho
    obtain ⟨x, hx, ho⟩ := Res.bind_eq_ok.1 (show ((s.codec cfg E).enc w >>= fun x => (t.codec cfg E).enc v >>= fun y => pure (x ++ y)) = _ from ho)
    obtain ⟨z, hz, ho⟩ := Res.bind_eq_ok.1 ho
    cases ho
    obtain ⟨p, q, rfl, h'⟩ := ih z hz
    refine ⟨x ++ p, q, by simp only [List.append_assoc], ?_⟩
    change ((s.codec cfg E).enc w >>= fun x => (t.codec cfg E).enc v' >>= fun y => pure (x ++ y)) = _
    rw [hx, h']
    exact congrArg Res.ok (by simp only [List.append_assoc])
  | array l r _ ih => exact ih.list r l
  | elem hl l r h h' _ ih =>
    rw [hl.enc, hl.enc, h, h']
    have := (ih.list r l).pre (encLen cfg (l.length + (r.length + 1)))
    unfold encSeq
    simp only [List.length_append, List.length_cons] at this ⊢
    exact this

theorem Ty.ReplacedIn.enc {ι : Type} {cfg : Cfg} {E : Env ι} {b b' : Bytes} (hlen : b.length = b'.length)
    {inner : (t : Ty ι) → t.denote E.X → t.denote E.X → Prop}
    (hi : ∀ t a a', inner t a a' → Spliced b b' ((t.codec cfg E).enc a) ((t.codec cfg E).enc a')) :
    ∀ (t : Ty ι) (w w' : t.denote E.X), Ty.ReplacedIn inner t w w' → Spliced b b' ((indexedOf cfg E t).enc w) ((indexedOf cfg E t).enc w') := by
  have hseq : ∀ (t : Ty ι) (l r : List (t.denote E.X)) (v v' : t.denote E.X), inner t v v' →
      Spliced b b' (serializeIndexedSeq (t.codec cfg E).enc (l ++ v :: r)) (serializeIndexedSeq (t.codec cfg E).enc (l ++ v' :: r)) := by
    intro t l r v v' h o ho
    obtain ⟨bs, hb, hw⟩ := Res.bind_eq_ok.1 ho
    obtain ⟨bl, _, _, br, rfl, ⟨p, q, rfl, rfl⟩, hb'⟩ := encEach_splice (R := fun y y' => ∃ p q, y = p ++ b ++ q ∧ y' = p ++ b' ++ q)
      (fun y hy => by
        obtain ⟨p, q, rfl, h'⟩ := hi _ _ _ h y hy
        exact ⟨_, h', p, q, rfl, rfl⟩) hb
    obtain ⟨p', q', rfl, hw'⟩ := writeSeqBodies_splice hlen bl p q br hw
    exact ⟨p', q', rfl, by unfold serializeIndexedSeq; rw [hb']; exact hw'⟩
  have hmap : ∀ (k t : Ty ι) (l r : List (k.denote E.X × t.denote E.X)) (key : k.denote E.X) (v v' : t.denote E.X), inner t v v' →
      Spliced b b' (serializeIndexedEntries (k.codec cfg E).enc (t.codec cfg E).enc (l ++ (key, v) :: r))
        (serializeIndexedEntries (k.codec cfg E).enc (t.codec cfg E).enc (l ++ (key, v') :: r)) := by
    intro k t l r key v v' h o ho
    obtain ⟨bs, hb, hw⟩ := Res.bind_eq_ok.1 ho
    obtain ⟨bl, _, _, br, rfl, ⟨kb, p, q, rfl, rfl⟩, hb'⟩ := encEach_splice (x := (key, v)) (x' := (key, v'))
      (R := fun (y y' : Bytes × Bytes) => ∃ kb p q, y = (kb, p ++ b ++ q) ∧ y' = (kb, p ++ b' ++ q))
      (fun y hy => by
        obtain ⟨kb, vb⟩ := y
        obtain ⟨h1, h2⟩ := encPair_ok.1 hy
        obtain ⟨p, q, rfl, h'⟩ := hi _ _ _ h vb h2
        exact ⟨(kb, p ++ b' ++ q), encPair_ok.2 ⟨h1, h'⟩, kb, p, q, rfl, rfl⟩) hb
    obtain ⟨cl, cr, h1, h2⟩ := sort_splice (fun x y => (cmpBytes x y).isLE) bl kb (p ++ b ++ q) (p ++ b' ++ q) br
    rw [h1] at hw
    obtain ⟨p', q', rfl, hw'⟩ := writeMapPairs_splice hlen cl kb p q cr hw
    refine ⟨p', q', rfl, ?_⟩
    unfold serializeIndexedEntries
    rw [hb']
    show writeMapPairs _ = _
    rw [h2]
    exact hw'
  intro t w w' h
  cases t with
  | vec t => obtain ⟨l, r, v, v', rfl, rfl, h⟩ := h; exact hseq t l r v v' h
  | vector t => obtain ⟨l, r, v, v', rfl, rfl, h⟩ := h; exact hseq t l r v v' h
  | btreeMap k t => obtain ⟨l, r, key, v, v', rfl, rfl, h⟩ := h; exact hmap k t l r key v v' h
  | hashMap k t => obtain ⟨l, r, key, v, v', rfl, rfl, h⟩ := h; exact hmap k t l r key v v' h
  | _ => exact h.elim

/-! ### Fields -/

section
variable {V : Type} {b b' : Bytes}

/-- The encodings of the fields, with one of them replaced. -/
theorem Encodes.splice {c : FieldDecl V → Codec V} : ∀ {fs : List (FieldDecl V)} {l r : List V} {x x' : V} {bs : List Bytes} {f : FieldDecl V},
    Encodes c fs (l ++ x :: r) bs → fs[l.length]? = some f → Spliced b b' ((c f).enc x) ((c f).enc x') →
      ∃ bl p q br, bs = bl ++ (p ++ b ++ q) :: br ∧ Encodes c fs (l ++ x' :: r) (bl ++ (p ++ b' ++ q) :: br)
  | _, [], r, x, x', _, f, he, hf, hs => by
    cases he with
    | cons h1 h2 =>
      cases hf
      obtain ⟨p, q, rfl, h'⟩ := hs _ h1
      exact ⟨[], p, q, _, rfl, .cons h' h2⟩
  | _, a :: l, r, x, x', _, f, he, hf, hs => by
    cases he with
    | cons h1 h2 =>
      obtain ⟨bl, p, q, br, rfl, h'⟩ := Encodes.splice h2 (by simpa using hf) hs
      exact ⟨_ :: bl, p, q, br, rfl, .cons h1 h'⟩

theorem flatten_splice (bl : List Bytes) (x : Bytes) (br : List Bytes) : (bl ++ x :: br).flatten = bl.flatten ++ x ++ br.flatten := by
  simp

/-- Offsets depend on the sizes alone. -/
theorem offsetTable_splice (bl : List Bytes) {x y : Bytes} (h : x.length = y.length) (br : List Bytes) :
    offsetTable (bl ++ x :: br) = offsetTable (bl ++ y :: br) := by
  unfold offsetTable
  simp only [List.length_append, List.length_cons]
  refine congrArg (fun g => List.flatMap g _) (funext fun i => ?_)
  have : ((bl ++ x :: br).take i).flatten.length = ((bl ++ y :: br).take i).flatten.length := by
    simp only [List.length_flatten, List.take_append, List.map_append, List.sum_append]
    congr 1
    cases i - bl.length <;> simp [h]
  rw [this]

theorem structLayout_splice {e : Entry} (hlen : b.length = b'.length ∨ e.optimised = false) (bl : List Bytes) (p q : Bytes)
    (br : List Bytes) : ∃ p' q', structLayout e (bl ++ (p ++ b ++ q) :: br) = p' ++ b ++ q' ∧
      structLayout e (bl ++ (p ++ b' ++ q) :: br) = p' ++ b' ++ q' ∧
      (e.optimised = true → (structPayload e (bl ++ (p ++ b ++ q) :: br)).length = (structPayload e (bl ++ (p ++ b' ++ q) :: br)).length) := by
  unfold structLayout
  by_cases ho : e.optimised = true
  · have hlen : b.length = b'.length := hlen.resolve_right (by simp [ho])
    have hl : (p ++ b ++ q).length = (p ++ b' ++ q).length := by simp [hlen]
    simp only [if_pos ho]
    unfold structPayload
    rw [offsetTable_splice bl hl, flatten_splice, flatten_splice]
    cases e.indexedStruct
    · refine ⟨leBytes 4 (bl.flatten ++ (p ++ b ++ q) ++ br.flatten).length ++ (bl.flatten ++ p), q ++ br.flatten, ?_, ?_, fun _ => ?_⟩
      · simp only [Bool.false_eq_true, if_false, List.append_assoc]
      · have : (bl.flatten ++ (p ++ b ++ q) ++ br.flatten).length = (bl.flatten ++ (p ++ b' ++ q) ++ br.flatten).length := by simp [hlen]
        rw [this]
        simp only [Bool.false_eq_true, if_false, List.append_assoc]
      · simp [hlen]
    · generalize offsetTable (bl ++ (p ++ b' ++ q) :: br) = T
      refine ⟨leBytes 4 (T ++ (bl.flatten ++ (p ++ b ++ q) ++ br.flatten)).length ++ (T ++ (bl.flatten ++ p)), q ++ br.flatten, ?_, ?_, fun _ => ?_⟩
      · simp only [if_true, List.append_assoc]
      · have : (T ++ (bl.flatten ++ (p ++ b ++ q) ++ br.flatten)).length = (T ++ (bl.flatten ++ (p ++ b' ++ q) ++ br.flatten)).length := by
          simp [hlen]
        rw [this]
        simp only [if_true, List.append_assoc]
      · simp [hlen]
  · simp only [if_neg ho]
    refine ⟨bl.flatten ++ p, q ++ br.flatten, ?_, ?_, fun h => absurd h ho⟩ <;> rw [flatten_splice] <;> simp only [List.append_assoc]

theorem structC_splice {cfg : Cfg} {h : List Entry} (hh : ValidHistory h) {fs : List (FieldDecl V)}
    (hlen : b.length = b'.length ∨ (lastEntry h).optimised = false) {l r : List V} {x x' : V} {f : FieldDecl V}
    (hl : (l ++ x :: r).length = (aliveFields fs h.length).length) (hf : (aliveFields fs h.length)[l.length]? = some f)
    (hs : Spliced b b' ((f.wire (lastEntry h)).enc x) ((f.wire (lastEntry h)).enc x')) :
    Spliced b b' ((structC cfg h fs).enc (l ++ x :: r)) ((structC cfg h fs).enc (l ++ x' :: r)) := by
  intro o ho
  obtain ⟨bs, he, hlt, rfl⟩ := (C48_layout cfg h hh fs _ hl o).1 ho
  obtain ⟨bl, p, q, br, rfl, he'⟩ := he.splice (b := b) (b' := b') hf hs
  obtain ⟨p', q', h1, h2, h3⟩ := structLayout_splice hlen bl p q br
  refine ⟨encU16 cfg h.length ++ p', q', by rw [h1]; simp only [List.append_assoc], ?_⟩
  refine (C48_layout cfg h hh fs _ (by simpa using hl) _).2 ⟨_, he', fun ho => ?_, by rw [h2]; simp only [List.append_assoc]⟩
  rw [← h3 ho]
  exact hlt ho

theorem enumLayout_splice {cfg : Cfg} {e : Entry} {d : Nat} {size : VariantSize} (hlen : b.length = b'.length ∨ e.optimised = false)
    (hz : e.optimised = true → size ≠ .inline) (bl : List Bytes) (p q : Bytes)
    (br : List Bytes) : ∃ p' q', enumLayout cfg e d size (bl ++ (p ++ b ++ q) :: br) = p' ++ b ++ q' ∧
      enumLayout cfg e d size (bl ++ (p ++ b' ++ q) :: br) = p' ++ b' ++ q' := by
  unfold enumLayout
  rw [flatten_splice, flatten_splice]
  by_cases ho : e.optimised = true
  · have hlen : b.length = b'.length := hlen.resolve_right (by simp [ho])
    have hl : (bl.flatten ++ (p ++ b ++ q) ++ br.flatten).length = (bl.flatten ++ (p ++ b' ++ q) ++ br.flatten).length := by simp [hlen]
    simp only [if_pos ho]
    cases size with
    | inline => exact absurd rfl (hz ho)
    | fixed n =>
      exact ⟨Tag.new (UInt8.ofNat d) (VariantSize.fixed n).cls :: (bl.flatten ++ p), q ++ br.flatten, by simp [sizedPayload], by simp [sizedPayload]⟩
    | varlen =>
      refine ⟨Tag.new (UInt8.ofNat d) VariantSize.varlen.cls :: (leBytes 4 (bl.flatten ++ (p ++ b ++ q) ++ br.flatten).length ++ (bl.flatten ++ p)),
        q ++ br.flatten, ?_, ?_⟩
      · simp only [sizedPayload, List.cons_append, List.append_assoc]
      · rw [hl]
        simp only [sizedPayload, List.cons_append, List.append_assoc]
  · simp only [if_neg ho]
    exact ⟨encU32 cfg d ++ (bl.flatten ++ p), q ++ br.flatten, by simp only [List.append_assoc], by simp only [List.append_assoc]⟩

theorem enumC_splice {cfg : Cfg} {h : List Entry} (hh : ValidHistory h) {vs : List (VariantDecl V)} (hA : AcceptedEnum (lastEntry h) vs)
    (hlen : b.length = b'.length ∨ (lastEntry h).optimised = false) {v : VariantDecl V} (hv : v ∈ vs) (ha : v.existsAt h.length = true)
    (hz : (lastEntry h).optimised = true → v.opts.size.getD .inline ≠ .inline) {l r : List V} {x x' : V} {f : FieldDecl V}
    (hl : (l ++ x :: r).length = (aliveFields v.fields h.length).length) (hf : (aliveFields v.fields h.length)[l.length]? = some f)
    (hs : Spliced b b' ((f.variantWire (lastEntry h)).enc x) ((f.variantWire (lastEntry h)).enc x')) :
    Spliced b b' ((enumC cfg h vs).enc ⟨v.ident, l ++ x :: r⟩) ((enumC cfg h vs).enc ⟨v.ident, l ++ x' :: r⟩) := by
  intro o ho
  obtain ⟨d, bs, hd, he, hlt, rfl⟩ := (C53_layout cfg h hh vs hA v hv ha _ hl o).1 ho
  obtain ⟨bl, p, q, br, rfl, he'⟩ := he.splice (b := b) (b' := b') hf hs
  obtain ⟨p', q', h1, h2⟩ := enumLayout_splice (cfg := cfg) (d := d) hlen hz bl p q br
  refine ⟨encU16 cfg h.length ++ p', q', by rw [h1]; simp only [List.append_assoc], ?_⟩
  refine (C53_layout cfg h hh vs hA v hv ha _ (by simpa using hl) _).2 ⟨d, _, hd, he', fun ho hsz => ?_, by rw [h2]; simp only [List.append_assoc]⟩
  have hlen : b.length = b'.length := hlen.resolve_right (by simp [ho])
  have := hlt ho hsz
  rw [flatten_splice] at this ⊢
  simp only [List.length_append] at this ⊢
  omega

end

section
variable {ι : Type} [DecidableEq ι] {K : ι → Kind} {b b' : Bytes}

theorem Field.plain_wire {cfg : Cfg} {I : Impls K} {n : Nat} {c : (i : ι) → Codec (Values K n i)} {e : Entry} {f : Field K}
    (h : f.WrittenPlain e false) (a : f.ty.denote (Values K n)) :
    ((f.decl cfg I n c).wire e).enc ⟨f.ty, a⟩ = (f.ty.codec cfg (I.env n c)).enc a := by
  have : (f.decl cfg I n c).wire e = (f.decl cfg I n c).plain := by
    unfold Field.WrittenPlain at h
    unfold FieldDecl.wire
    split at h
    · rename_i ho
      rw [if_pos ho]
      unfold FieldDecl.optimisedC
      rw [if_neg]
      have := h.resolve_left (by simp)
      exact fun hi => by rw [show (f.decl cfg I n c).isIndexed = f.isIndexed from rfl, this] at hi; cases hi
    · rename_i ho
      rw [if_neg ho]
      unfold FieldDecl.legacyC
      rw [if_neg (by show ¬ f.opts.fixed = true; rw [h.1]; simp), if_neg (by show ¬ f.opts.specialised = true; rw [h.2]; simp)]
  rw [this]
  exact dynC_enc (E := I.env n c) f.ty _ a

theorem Field.indexed_wire {cfg : Cfg} {I : Impls K} {n : Nat} {c : (i : ι) → Codec (Values K n i)} {e : Entry} {f : Field K}
    (h : f.WrittenIndexed e) (a : f.ty.denote (Values K n)) :
    ((f.decl cfg I n c).wire e).enc ⟨f.ty, a⟩ = (indexedOf cfg (I.env n c) f.ty).enc a := by
  have : (f.decl cfg I n c).wire e = (f.decl cfg I n c).indexed := by
    unfold FieldDecl.wire FieldDecl.optimisedC
    rw [if_pos h.1, if_pos (show (f.decl cfg I n c).isIndexed = true from h.2)]
  rw [this]
  exact dynC_enc (E := I.env n c) f.ty _ a

theorem Field.plain_variantWire {cfg : Cfg} {I : Impls K} {n : Nat} {c : (i : ι) → Codec (Values K n i)} {e : Entry} {f : Field K}
    (h : f.WrittenPlain e true) (a : f.ty.denote (Values K n)) :
    ((f.decl cfg I n c).variantWire e).enc ⟨f.ty, a⟩ = (f.ty.codec cfg (I.env n c)).enc a := by
  have : (f.decl cfg I n c).variantWire e = (f.decl cfg I n c).plain := by
    unfold Field.WrittenPlain at h
    unfold FieldDecl.variantWire
    split at h
    · rename_i ho
      rw [if_pos ho]
    · rename_i ho
      rw [if_neg ho]
      unfold FieldDecl.legacyC
      rw [if_neg (by show ¬ f.opts.fixed = true; rw [h.1]; simp), if_neg (by show ¬ f.opts.specialised = true; rw [h.2]; simp)]
  rw [this]
  exact dynC_enc (E := I.env n c) f.ty _ a

theorem Field.Replaced.enc {cfg : Cfg} {I : Impls K} {n : Nat} {c : (i : ι) → Codec (Values K n i)} {wire : Codec (DynAt K n)}
    {plain indexed : Prop}
    {inner : (t : Ty ι) → t.denote (Values K n) → t.denote (Values K n) → Prop} {f : Field K} {x x' : DynAt K n}
    (hw : plain → ∀ a, wire.enc ⟨f.ty, a⟩ = (f.ty.codec cfg (I.env n c)).enc a)
    (hx : indexed → b.length = b'.length ∧ ∀ a, wire.enc ⟨f.ty, a⟩ = (indexedOf cfg (I.env n c) f.ty).enc a)
    (hi : ∀ t a a', inner t a a' → Spliced b b' ((t.codec cfg (I.env n c)).enc a) ((t.codec cfg (I.env n c)).enc a'))
    (h : f.Replaced wire plain indexed b b' inner x x') : Spliced b b' (wire.enc x) (wire.enc x') := by
  rcases h with ⟨h, h'⟩ | ⟨hp, a, a', rfl, rfl, h⟩ | ⟨hp, a, a', rfl, rfl, h⟩
  · exact .here h h'
  · rw [hw hp, hw hp]
    exact hi _ _ _ h
  · rw [(hx hp).2, (hx hp).2]
    exact Ty.ReplacedIn.enc (E := I.env n c) (hx hp).1 hi _ _ _ h

theorem aliveFields_decl (cfg : Cfg) (I : Impls K) (n : Nat) (c : (i : ι) → Codec (Values K n i)) (fs : List (Field K)) (r : Nat) :
    aliveFields (fs.map (·.decl cfg I n c)) r = (fs.filter (·.existsAt r)).map (·.decl cfg I n c) := by
  unfold aliveFields
  rw [List.filter_map]
  rfl

theorem Body.Replaced.enc {cfg : Cfg} {I : Impls K} {n : Nat} {c : (i : ι) → Codec (Values K n i)} {h : List Entry} (hh : ValidHistory h)
    (hlen : b.length = b'.length ∨ (lastEntry h).optimised = false)
    {inner : (t : Ty ι) → t.denote (Values K n) → t.denote (Values K n) → Prop}
    (hi : ∀ t a a', inner t a a' → Spliced b b' ((t.codec cfg (I.env n c)).enc a) ((t.codec cfg (I.env n c)).enc a')) :
    ∀ {k : Kind} (B : Body K k), B.Accepted (lastEntry h) → ∀ x x', B.Replaced cfg I c h b b' inner x x' →
      Spliced b b' ((B.codec cfg I n c h).enc x) ((B.codec cfg I n c h).enc x')
  | _, .struct fs, _, _, _, hr => by
    obtain ⟨hl, f, l, x, x', r, rfl, rfl, hf, hR⟩ := hr
    refine structC_splice hh hlen (f := f.decl cfg I n c) ?_ ?_ (hR.enc (fun hp a => Field.plain_wire hp a)
      (fun hp => ⟨hlen.resolve_right (by simp [hp.1]), Field.indexed_wire hp⟩) hi)
    · rw [aliveFields_decl, List.length_map]
      exact hl
    · rw [aliveFields_decl, List.getElem?_map, hf]
      rfl
  | _, .enum vs, hA, ⟨name, xs⟩, ⟨name', xs'⟩, hr => by
    obtain ⟨hn, v, hv, ha, hi', hz, hl, f, l, x, x', r, h1, h2, hf, hR⟩ := hr
    cases hn
    cases hi'
    cases h1
    cases h2
    refine enumC_splice hh (accepted_decl cfg I n c hA) hlen (v := v.decl cfg I n c) (List.mem_map.2 ⟨v, hv, rfl⟩) ha hz
      (f := f.decl cfg I n c) ?_ ?_ (hR.enc (fun hp a => Field.plain_variantWire hp a) (fun hp => hp.elim) hi)
    · show _ = (aliveFields (v.fields.map (·.decl cfg I n c)) h.length).length
      rw [aliveFields_decl, List.length_map]
      exact hl
    · show (aliveFields (v.fields.map (·.decl cfg I n c)) h.length)[l.length]? = _
      rw [aliveFields_decl, List.getElem?_map, hf]
      rfl
  | _, .foreign _, _, _, _, hr => hr.elim

theorem Program.Replaced.enc {cfg : Cfg} {P : Program ι} {I : Impls P.kind} (hh : ∀ i, ValidHistory (P.history i))
    (hA : ∀ i, (P.body i).Accepted (lastEntry (P.history i))) (hlen : b.length = b'.length ∨ P.WritesLegacy) :
    ∀ (n : Nat) (t : Ty ι) (v v' : t.denote (Values P.kind n)), P.Replaced cfg I b b' n t v v' →
      Spliced b b' (P.encode cfg I n t v) (P.encode cfg I n t v')
  | 0, _, _, _, h => Ty.Replaced.enc (E := I.env 0 (P.codec cfg I 0)) (fun _ x => nomatch x) (fun _ _ _ h => .here h.1 h.2) h
  | n + 1, _, _, _, h => Ty.Replaced.enc (E := I.env (n + 1) (P.codec cfg I (n + 1)))
    (fun i x x' hx => Body.Replaced.enc (hh i) (hlen.imp_right fun h => h i)
      (fun t a a' ha => Program.Replaced.enc hh hA hlen n t a a' ha) (P.body i) (hA i) x x' hx)
    (fun _ _ _ h => .here h.1 h.2) h

end

end Revision
