import Verif.Proofs.Patch

/-! # Lemmas on values of which one part is replaced by one of another size -/

namespace Revision

/-- Both results contain their part, as many bytes before it and the same bytes after it. -/
def Shifted (b b' : Bytes) (r r' : Res Bytes) : Prop := ∀ o o', r = .ok o → r' = .ok o' →
  ∃ p p' q, o = p ++ b ++ q ∧ o' = p' ++ b' ++ q ∧ p.length = p'.length

namespace Shifted
variable {b b' : Bytes} {r r' : Res Bytes}

theorem here (h : r = .ok b) (h' : r' = .ok b') : Shifted b b' r r' := by
  intro o o' ho ho'
  cases h.symm.trans ho
  cases h'.symm.trans ho'
  exact ⟨[], [], [], by simp, by simp, rfl⟩

theorem pre (h : Shifted b b' r r') (a : Bytes) : Shifted b b' (r >>= fun x => pure (a ++ x)) (r' >>= fun x => pure (a ++ x)) := by
  intro o o' ho ho'
  obtain ⟨x, hx, ho⟩ := Res.bind_eq_ok.1 ho
  obtain ⟨x', hx', ho'⟩ := Res.bind_eq_ok.1 ho'
  cases ho
  cases ho'
  obtain ⟨p, p', q, rfl, rfl, hp⟩ := h x x' hx hx'
  exact ⟨a ++ p, a ++ p', q, by simp only [List.append_assoc], by simp only [List.append_assoc], by simp [hp]⟩

theorem both {s : Res Bytes} (h : Shifted b b' r r') :
    Shifted b b' (r >>= fun x => s >>= fun y => pure (x ++ y)) (r' >>= fun x => s >>= fun y => pure (x ++ y)) ∧
    Shifted b b' (s >>= fun x => r >>= fun y => pure (x ++ y)) (s >>= fun x => r' >>= fun y => pure (x ++ y)) := by
  constructor
  all_goals
    intro o o' ho ho'
    obtain ⟨x, hx, ho⟩ := Res.bind_eq_ok.1 ho
    obtain ⟨x', hx', ho'⟩ := Res.bind_eq_ok.1 ho'
    obtain ⟨y, hy, ho⟩ := Res.bind_eq_ok.1 ho
    obtain ⟨y', hy', ho'⟩ := Res.bind_eq_ok.1 ho'
    cases ho
    cases ho'
  · cases hy.symm.trans hy'
    obtain ⟨p, p', q, rfl, rfl, hp⟩ := h x x' hx hx'
    exact ⟨p, p', q ++ y, by simp only [List.append_assoc], by simp only [List.append_assoc], hp⟩
  · cases hx.symm.trans hx'
    obtain ⟨p, p', q, rfl, rfl, hp⟩ := h y y' hy hy'
    exact ⟨x ++ p, x ++ p', q, by simp only [List.append_assoc], by simp only [List.append_assoc], by simp [hp]⟩

theorem list {α : Type} {enc : α → Res Bytes} {v v' : α} (h : Shifted b b' (enc v) (enc v')) (r : List α) :
    ∀ l, Shifted b b' (encList enc (l ++ v :: r)) (encList enc (l ++ v' :: r))
  | [] => h.both.1
  | _ :: l => (h.list r l).both.2

end Shifted

section
variable {α β κ ν : Type} {b b' : Bytes}

/-- The encodings of items of which one differs. -/
theorem encEach_two {f : α → Res β} {x x' : α} {r : List α} : ∀ {l : List α} {bs bs' : List β},
    encEach f (l ++ x :: r) = .ok bs → encEach f (l ++ x' :: r) = .ok bs' →
      ∃ bl y y' br, bs = bl ++ y :: br ∧ bs' = bl ++ y' :: br ∧ f x = .ok y ∧ f x' = .ok y'
  | [], _, _, hb, hb' => by
    obtain ⟨y, br, rfl, h1, h2⟩ := encEach_cons.1 hb
    obtain ⟨y', br', rfl, h1', h2'⟩ := encEach_cons.1 hb'
    cases h2.symm.trans h2'
    exact ⟨[], y, y', br, rfl, rfl, h1, h1'⟩
  | a :: l, _, _, hb, hb' => by
    obtain ⟨z, bs, rfl, h1, h2⟩ := encEach_cons.1 hb
    obtain ⟨z', bs', rfl, h1', h2'⟩ := encEach_cons.1 hb'
    cases h1.symm.trans h1'
    obtain ⟨bl, y, y', br, rfl, rfl, h, h'⟩ := encEach_two h2 h2'
    exact ⟨z :: bl, y, y', br, rfl, rfl, h, h'⟩

theorem writeSeqBodies_shifted {bl br : List Bytes} {p p' q o o' : Bytes} (hp : p.length = p'.length)
    (h : writeSeqBodies (bl ++ (p ++ b ++ q) :: br) = .ok o) (h' : writeSeqBodies (bl ++ (p' ++ b' ++ q) :: br) = .ok o') :
    ∃ p p' q, o = p ++ b ++ q ∧ o' = p' ++ b' ++ q ∧ p.length = p'.length := by
  have hl : (bl ++ (p ++ b ++ q) :: br).length = (bl ++ (p' ++ b' ++ q) :: br).length := by simp
  rcases writeSeqBodies_ok h with ⟨h8, rfl⟩ | ⟨h8, os, last, ho, rfl⟩ <;>
    rcases writeSeqBodies_ok h' with ⟨h8', rfl⟩ | ⟨h8', os', last', ho', rfl⟩
  · rw [hl]
    generalize writeVarint (bl ++ (p' ++ b' ++ q) :: br).length = n
    exact ⟨0 :: (n ++ (bl.flatten ++ p)), 0 :: (n ++ (bl.flatten ++ p')), q ++ br.flatten, by simp, by simp, by simp [hp]⟩
  · omega
  · omega
  · have e := seqOffsets_length ho
    have e' := seqOffsets_length ho'
    rw [hl] at e ⊢
    generalize writeVarint (bl ++ (p' ++ b' ++ q) :: br).length = n
    exact ⟨1 :: (n ++ (tbl os ++ (bl.flatten ++ p))), 1 :: (n ++ (tbl os' ++ (bl.flatten ++ p'))), q ++ br.flatten, by simp, by simp,
      by simp only [List.length_cons, List.length_append, tbl_length, e, e', hp]⟩

theorem writeMapPairs_shifted {bl br : List (Bytes × Bytes)} {k p p' q o o' : Bytes} (hp : p.length = p'.length)
    (h : writeMapPairs (bl ++ (k, p ++ b ++ q) :: br) = .ok o) (h' : writeMapPairs (bl ++ (k, p' ++ b' ++ q) :: br) = .ok o') :
    ∃ p p' q, o = p ++ b ++ q ∧ o' = p' ++ b' ++ q ∧ p.length = p'.length := by
  have hl : (bl ++ (k, p ++ b ++ q) :: br).length = (bl ++ (k, p' ++ b' ++ q) :: br).length := by simp
  have hk : (bl ++ (k, p ++ b ++ q) :: br).map Prod.fst = (bl ++ (k, p' ++ b' ++ q) :: br).map Prod.fst := by simp
  rcases writeMapPairs_ok h with ⟨h8, rfl⟩ | ⟨h8, os, kl, vl, ho, rfl⟩ <;>
    rcases writeMapPairs_ok h' with ⟨h8', rfl⟩ | ⟨h8', os', kl', vl', ho', rfl⟩
  · rw [hl]
    generalize writeVarint (bl ++ (k, p' ++ b' ++ q) :: br).length = n
    exact ⟨0 :: (n ++ ((bl.map fun p => p.1 ++ p.2).flatten ++ (k ++ p))), 0 :: (n ++ ((bl.map fun p => p.1 ++ p.2).flatten ++ (k ++ p'))),
      q ++ (br.map fun p => p.1 ++ p.2).flatten, by simp, by simp, by simp [hp]⟩
  · omega
  · omega
  · have e := mapOffsets_length ho
    have e' := mapOffsets_length ho'
    rw [hl] at e ⊢
    rw [hk]
    generalize ((bl ++ (k, p' ++ b' ++ q) :: br).map Prod.fst).flatten = K
    generalize writeVarint (bl ++ (k, p' ++ b' ++ q) :: br).length = n
    refine ⟨1 :: (n ++ ((os.map fun o => leBytes 4 o.1 ++ leBytes 4 o.2).flatten ++ (leBytes 4 kl ++ (leBytes 4 vl ++ (K ++
        ((bl.map Prod.snd).flatten ++ p)))))),
      1 :: (n ++ ((os'.map fun o => leBytes 4 o.1 ++ leBytes 4 o.2).flatten ++ (leBytes 4 kl' ++ (leBytes 4 vl' ++ (K ++
        ((bl.map Prod.snd).flatten ++ p')))))), q ++ (br.map Prod.snd).flatten, by simp, by simp, ?_⟩
    simp only [List.length_cons, List.length_append, pairTable_length, leBytes_length, e, e', hp]

theorem Ty.ReplacedIn.shifted {ι : Type} {cfg : Cfg} {E : Env ι}
    {inner : (t : Ty ι) → t.denote E.X → t.denote E.X → Prop}
    (hi : ∀ t a a', inner t a a' → Shifted b b' ((t.codec cfg E).enc a) ((t.codec cfg E).enc a')) :
    ∀ (t : Ty ι) (w w' : t.denote E.X), Ty.ReplacedIn inner t w w' → Shifted b b' ((indexedOf cfg E t).enc w) ((indexedOf cfg E t).enc w') := by
  have hseq : ∀ (t : Ty ι) (l r : List (t.denote E.X)) (v v' : t.denote E.X), inner t v v' →
      Shifted b b' (serializeIndexedSeq (t.codec cfg E).enc (l ++ v :: r)) (serializeIndexedSeq (t.codec cfg E).enc (l ++ v' :: r)) := by
    intro t l r v v' h o o' ho ho'
    obtain ⟨bs, hb, hw⟩ := Res.bind_eq_ok.1 ho
    obtain ⟨bs', hb', hw'⟩ := Res.bind_eq_ok.1 ho'
    obtain ⟨bl, y, y', br, rfl, rfl, h1, h2⟩ := encEach_two hb hb'
    obtain ⟨p, p', q, rfl, rfl, hp⟩ := hi _ _ _ h y y' h1 h2
    exact writeSeqBodies_shifted hp hw hw'
  have hmap : ∀ (k t : Ty ι) (l r : List (k.denote E.X × t.denote E.X)) (key : k.denote E.X) (v v' : t.denote E.X), inner t v v' →
      Shifted b b' (serializeIndexedEntries (k.codec cfg E).enc (t.codec cfg E).enc (l ++ (key, v) :: r))
        (serializeIndexedEntries (k.codec cfg E).enc (t.codec cfg E).enc (l ++ (key, v') :: r)) := by
    intro k t l r key v v' h o o' ho ho'
    obtain ⟨bs, hb, hw⟩ := Res.bind_eq_ok.1 ho
    obtain ⟨bs', hb', hw'⟩ := Res.bind_eq_ok.1 ho'
    obtain ⟨bl, ⟨k1, y⟩, ⟨k2, y'⟩, br, rfl, rfl, h1, h2⟩ := encEach_two hb hb'
    obtain ⟨h1, h3⟩ := encPair_ok.1 h1
    obtain ⟨h2, h4⟩ := encPair_ok.1 h2
    cases h1.symm.trans h2
    obtain ⟨p, p', q, rfl, rfl, hp⟩ := hi _ _ _ h _ _ h3 h4
    obtain ⟨cl, cr, s1, s2⟩ := sort_splice (fun x y => (cmpBytes x y).isLE) bl k1 (p ++ b ++ q) (p' ++ b' ++ q) br
    rw [s1] at hw
    rw [s2] at hw'
    exact writeMapPairs_shifted hp hw hw'
  intro t w w' h
  cases t with
  | vec t => obtain ⟨l, r, v, v', rfl, rfl, h⟩ := h; exact hseq t l r v v' h
  | vector t => obtain ⟨l, r, v, v', rfl, rfl, h⟩ := h; exact hseq t l r v v' h
  | btreeMap k t => obtain ⟨l, r, key, v, v', rfl, rfl, h⟩ := h; exact hmap k t l r key v v' h
  | hashMap k t => obtain ⟨l, r, key, v, v', rfl, rfl, h⟩ := h; exact hmap k t l r key v v' h
  | _ => exact h.elim

end

theorem Ty.Replaced.shifted {ι : Type} {cfg : Cfg} {E : Env ι} {b b' : Bytes} {ext : (i : ι) → E.X i → E.X i → Prop}
    {part : (t : Ty ι) → t.denote E.X → t.denote E.X → Prop}
    (he : ∀ i x x', ext i x x' → Shifted b b' ((E.extC i).enc x) ((E.extC i).enc x'))
    (hp : ∀ t v v', part t v v' → Shifted b b' ((t.codec cfg E).enc v) ((t.codec cfg E).enc v'))
    {t : Ty ι} {v v' : t.denote E.X} (h : Ty.Replaced cfg E ext part t v v') :
    Shifted b b' ((t.codec cfg E).enc v) ((t.codec cfg E).enc v') := by
  induction h with
  | part h => exact hp _ _ _ h
  | ext h => exact he _ _ _ h
  | wrap _ ih => exact ih
  | some _ ih => exact ih.pre _
  | ok _ ih => exact ih.pre _
  | error _ ih => exact ih.pre _
  | included _ ih => exact ih.pre _
  | excluded _ ih => exact ih.pre _
  | fst _ ih => exact ih.both.1
  | snd _ ih => exact ih.both.2
  | array l r _ ih => exact ih.list r l
  | elem hl l r h h' _ ih =>
    rw [hl.enc, hl.enc, h, h']
    have := (ih.list r l).pre (encLen cfg (l.length + (r.length + 1)))
    unfold encSeq
    simp only [List.length_append, List.length_cons] at this ⊢
    exact this

section
variable {V : Type} {b b' : Bytes}

theorem Encodes.eq_of {c : FieldDecl V → Codec V} {fs : List (FieldDecl V)} {vs : List V} {bs : List Bytes} (h : Encodes c fs vs bs) :
    ∀ {bs'}, Encodes c fs vs bs' → bs = bs' := by
  induction h with
  | nil => intro _ h'; cases h'; rfl
  | cons h1 _ ih =>
    intro _ h'
    cases h' with
    | cons h1' h2' =>
      cases h1.symm.trans h1'
      rw [ih h2']

theorem Encodes.two {c : FieldDecl V → Codec V} : ∀ {fs : List (FieldDecl V)} {l r : List V} {x x' : V} {bs bs' : List Bytes} {f : FieldDecl V},
    Encodes c fs (l ++ x :: r) bs → Encodes c fs (l ++ x' :: r) bs' → fs[l.length]? = some f →
      Shifted b b' ((c f).enc x) ((c f).enc x') →
      bs'.length = bs.length ∧ ∃ p p' q, bs.flatten = p ++ b ++ q ∧ bs'.flatten = p' ++ b' ++ q ∧ p.length = p'.length
  | _, [], r, x, x', _, _, f, he, he', hf, hs => by
    cases he with
    | cons h1 h2 =>
      cases he' with
      | cons h1' h2' =>
        cases hf
        obtain ⟨p, p', q, rfl, rfl, hp⟩ := hs _ _ h1 h1'
        have e := h2.eq_of h2'
        subst e
        exact ⟨rfl, p, p', q ++ _, by rw [List.flatten_cons, List.append_assoc _ q], by rw [List.flatten_cons, List.append_assoc _ q], hp⟩
  | _, a :: l, r, x, x', _, _, f, he, he', hf, hs => by
    cases he with
    | cons h1 h2 =>
      cases he' with
      | cons h1' h2' =>
        obtain ⟨hl, p, p', q, e, e', hp⟩ := Encodes.two h2 h2' (by simpa using hf) hs
        cases h1.symm.trans h1'
        rename_i y _ _
        exact ⟨congrArg (· + 1) hl, y ++ p, y ++ p', q, by rw [List.flatten_cons, e]; simp only [List.append_assoc],
          by rw [List.flatten_cons, e']; simp only [List.append_assoc], by simp [hp]⟩

theorem structC_shifted {cfg : Cfg} {h : List Entry} (hh : ValidHistory h) {fs : List (FieldDecl V)} {l r : List V} {x x' : V} {f : FieldDecl V}
    (hl : (l ++ x :: r).length = (aliveFields fs h.length).length) (hf : (aliveFields fs h.length)[l.length]? = some f)
    (hs : Shifted b b' ((f.wire (lastEntry h)).enc x) ((f.wire (lastEntry h)).enc x')) :
    Shifted b b' ((structC cfg h fs).enc (l ++ x :: r)) ((structC cfg h fs).enc (l ++ x' :: r)) := by
  intro o o' ho ho'
  obtain ⟨bs, he, _, rfl⟩ := (C48_layout cfg h hh fs _ hl o).1 ho
  obtain ⟨bs', he', _, rfl⟩ := (C48_layout cfg h hh fs _ (by simpa using hl) o').1 ho'
  obtain ⟨h1, p, p', q, e, e', hp⟩ := he.two he' hf hs
  have ht := offsetTable_length bs
  have ht' := offsetTable_length bs'
  unfold structLayout structPayload
  rw [e, e']
  generalize encU16 cfg h.length = H
  cases (lastEntry h).optimised <;> cases (lastEntry h).indexedStruct <;> simp only [Bool.false_eq_true, if_false, if_true]
  · exact ⟨H ++ p, H ++ p', q, by simp only [List.append_assoc], by simp only [List.append_assoc], by simp [hp]⟩
  · exact ⟨H ++ p, H ++ p', q, by simp only [List.append_assoc], by simp only [List.append_assoc], by simp [hp]⟩
  · exact ⟨H ++ (leBytes 4 (p ++ b ++ q).length ++ p), H ++ (leBytes 4 (p' ++ b' ++ q).length ++ p'), q,
      by simp only [List.append_assoc], by simp only [List.append_assoc], by simp only [List.length_append, leBytes_length, hp]⟩
  · exact ⟨H ++ (leBytes 4 (offsetTable bs ++ (p ++ b ++ q)).length ++ (offsetTable bs ++ p)),
      H ++ (leBytes 4 (offsetTable bs' ++ (p' ++ b' ++ q)).length ++ (offsetTable bs' ++ p')), q,
      by simp only [List.append_assoc], by simp only [List.append_assoc],
      by simp only [List.length_append, leBytes_length, hp, ht, ht', h1]⟩

theorem enumC_shifted {cfg : Cfg} {h : List Entry} (hh : ValidHistory h) {vs : List (VariantDecl V)} (hA : AcceptedEnum (lastEntry h) vs)
    {v : VariantDecl V} (hv : v ∈ vs) (ha : v.existsAt h.length = true)
    (hz : (lastEntry h).optimised = true → v.opts.size.getD .inline ≠ .inline) {l r : List V} {x x' : V} {f : FieldDecl V}
    (hl : (l ++ x :: r).length = (aliveFields v.fields h.length).length) (hf : (aliveFields v.fields h.length)[l.length]? = some f)
    (hs : Shifted b b' ((f.variantWire (lastEntry h)).enc x) ((f.variantWire (lastEntry h)).enc x')) :
    Shifted b b' ((enumC cfg h vs).enc ⟨v.ident, l ++ x :: r⟩) ((enumC cfg h vs).enc ⟨v.ident, l ++ x' :: r⟩) := by
  intro o o' ho ho'
  obtain ⟨d, bs, hd, he, _, rfl⟩ := (C53_layout cfg h hh vs hA v hv ha _ hl o).1 ho
  obtain ⟨d', bs', hd', he', _, rfl⟩ := (C53_layout cfg h hh vs hA v hv ha _ (by simpa using hl) o').1 ho'
  obtain ⟨D, hD, hd⟩ := hd
  obtain ⟨D', hD', hd'⟩ := hd'
  cases hD.symm.trans hD'
  cases hd.symm.trans hd'
  obtain ⟨h1, p, p', q, e, e', hp⟩ := he.two he' hf hs
  unfold enumLayout
  rw [e, e']
  generalize encU16 cfg h.length = H
  by_cases hopt : (lastEntry h).optimised = true
  · simp only [if_pos hopt]
    have := hz hopt
    revert this
    cases v.opts.size.getD .inline with
    | inline => exact fun h => absurd rfl h
    | fixed n =>
      intro _
      generalize Tag.new (UInt8.ofNat d) (VariantSize.fixed n).cls = T
      exact ⟨H ++ (T :: p), H ++ (T :: p'), q, by simp [sizedPayload], by simp [sizedPayload], by simp [hp]⟩
    | varlen =>
      intro _
      generalize Tag.new (UInt8.ofNat d) VariantSize.varlen.cls = T
      refine ⟨H ++ (T :: (leBytes 4 (p ++ b ++ q).length ++ p)), H ++ (T :: (leBytes 4 (p' ++ b' ++ q).length ++ p')), q, ?_, ?_, ?_⟩
      · simp only [sizedPayload, List.append_assoc, List.cons_append]
      · simp only [sizedPayload, List.append_assoc, List.cons_append]
      · simp only [List.length_append, List.length_cons, leBytes_length, hp]
  · simp only [if_neg hopt]
    exact ⟨H ++ (encU32 cfg d ++ p), H ++ (encU32 cfg d ++ p'), q, by simp only [List.append_assoc], by simp only [List.append_assoc],
      by simp [hp]⟩

end

section
variable {ι : Type} [DecidableEq ι] {K : ι → Kind} {b b' : Bytes}

omit [DecidableEq ι] in
theorem Field.Replaced.shifted [DecidableEq ι] {cfg : Cfg} {I : Impls K} {n : Nat} {c : (i : ι) → Codec (Values K n i)} {wire : Codec (DynAt K n)}
    {plain indexed : Prop} {inner : (t : Ty ι) → t.denote (Values K n) → t.denote (Values K n) → Prop} {f : Field K} {x x' : DynAt K n}
    (hw : plain → ∀ a, wire.enc ⟨f.ty, a⟩ = (f.ty.codec cfg (I.env n c)).enc a)
    (hx : indexed → ∀ a, wire.enc ⟨f.ty, a⟩ = (indexedOf cfg (I.env n c) f.ty).enc a)
    (hi : ∀ t a a', inner t a a' → Shifted b b' ((t.codec cfg (I.env n c)).enc a) ((t.codec cfg (I.env n c)).enc a'))
    (h : f.Replaced wire plain indexed b b' inner x x') : Shifted b b' (wire.enc x) (wire.enc x') := by
  rcases h with ⟨h, h'⟩ | ⟨hp, a, a', rfl, rfl, h⟩ | ⟨hp, a, a', rfl, rfl, h⟩
  · exact .here h h'
  · rw [hw hp, hw hp]
    exact hi _ _ _ h
  · rw [hx hp, hx hp]
    exact Ty.ReplacedIn.shifted (E := I.env n c) hi _ _ _ h

theorem Body.Replaced.shifted {cfg : Cfg} {I : Impls K} {n : Nat} {c : (i : ι) → Codec (Values K n i)} {h : List Entry} (hh : ValidHistory h)
    {inner : (t : Ty ι) → t.denote (Values K n) → t.denote (Values K n) → Prop}
    (hi : ∀ t a a', inner t a a' → Shifted b b' ((t.codec cfg (I.env n c)).enc a) ((t.codec cfg (I.env n c)).enc a')) :
    ∀ {k : Kind} (B : Body K k), B.Accepted (lastEntry h) → ∀ x x', B.Replaced cfg I c h b b' inner x x' →
      Shifted b b' ((B.codec cfg I n c h).enc x) ((B.codec cfg I n c h).enc x')
  | _, .struct fs, _, _, _, hr => by
    obtain ⟨hl, f, l, x, x', r, rfl, rfl, hf, hR⟩ := hr
    refine structC_shifted hh (f := f.decl cfg I n c) ?_ ?_ (hR.shifted (fun hp a => Field.plain_wire hp a)
      (fun hp => Field.indexed_wire hp) hi)
    · rw [aliveFields_decl, List.length_map]
      exact hl
    · rw [aliveFields_decl, List.getElem?_map, hf]
      rfl
  | _, .enum vs, hA, ⟨name, xs⟩, ⟨name', xs'⟩, hr => by
    obtain ⟨hn, v, hv, ha, hi', hz, hl, f, l, x, x', r, h1, h2, hf, hR⟩ := hr
    cases hn
    cases hi'
    cases h1
    cases h2
    refine enumC_shifted hh (accepted_decl cfg I n c hA) (v := v.decl cfg I n c) (List.mem_map.2 ⟨v, hv, rfl⟩) ha hz
      (f := f.decl cfg I n c) ?_ ?_ (hR.shifted (fun hp a => Field.plain_variantWire hp a) (fun hp => hp.elim) hi)
    · show _ = (aliveFields (v.fields.map (·.decl cfg I n c)) h.length).length
      rw [aliveFields_decl, List.length_map]
      exact hl
    · show (aliveFields (v.fields.map (·.decl cfg I n c)) h.length)[l.length]? = _
      rw [aliveFields_decl, List.getElem?_map, hf]
      rfl
  | _, .foreign _, _, _, _, hr => hr.elim

theorem Program.Replaced.shifted {cfg : Cfg} {P : Program ι} {I : Impls P.kind} (hh : ∀ i, ValidHistory (P.history i))
    (hA : ∀ i, (P.body i).Accepted (lastEntry (P.history i))) :
    ∀ (n : Nat) (t : Ty ι) (v v' : t.denote (Values P.kind n)), P.Replaced cfg I b b' n t v v' →
      Shifted b b' (P.encode cfg I n t v) (P.encode cfg I n t v')
  | 0, _, _, _, h => Ty.Replaced.shifted (E := I.env 0 (P.codec cfg I 0)) (fun _ x => nomatch x) (fun _ _ _ h => .here h.1 h.2) h
  | n + 1, _, _, _, h => Ty.Replaced.shifted (E := I.env (n + 1) (P.codec cfg I (n + 1)))
    (fun i x x' hx => Body.Replaced.shifted (hh i)
      (fun t a a' ha => Program.Replaced.shifted hh hA n t a a' ha) (P.body i) (hA i) x x' hx)
    (fun _ _ _ h => .here h.1 h.2) h

end

end Revision
