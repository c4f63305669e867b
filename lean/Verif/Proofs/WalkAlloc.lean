import Verif.Proofs.AllocSkip
import Verif.Spec.WalkAlloc

/-! Helper lemmas: the memory requested while a path is followed. -/

namespace Revision

/-- The two codecs decode and serialise alike. -/
structure Codec.DecEq (c d : Codec α) : Prop where
  dec : c.dec = d.dec
  enc : c.enc = d.enc

/-- What is done with a part is the same under both codecs. -/
inductive Get.Same {α β : Type} (c d : Codec α) : Get α β → Get α β → Prop
  | decode (out : α → β) : c.dec = d.dec → Get.Same c d (.decode out) (.decode out)
  | walk (m : Rd (Option β)) : Get.Same c d (.walk m) (.walk m)

theorem Get.Same.read {α β : Type} {c d : Codec α} {g g' : Get α β} (h : g.Same c d g') : g.read c = g'.read d := by
  cases h with
  | decode out h => simp only [Get.read, h]
  | walk m => rfl

theorem Rd.bind_congr_of {m : Rd α} {f g : α → Rd β} {Q : α → Prop} (hm : m.Yields Q) (h : ∀ a, Q a → f a = g a) :
    m >>= f = m >>= g := by
  have ext : ∀ {m n : Rd β}, (∀ s, m s = n s) → m = n := fun {m n} h => by
    cases m; cases n; congr; funext s; exact h s
  refine ext fun s => ?_
  simp only [Rd.bind_run]
  cases hs : m s with
  | ok p => simp only [h p.1 (hm s p.1 p.2 hs)]
  | err e => rfl
  | panic => rfl

/-! ### The supported types -/

section
variable {κ α β : Type}

theorem seqAt_eq {s s' : Rd Unit} (hs : s = s') {m m' : Rd (Option β)} (hm : m = m') (k : Nat) (w : SeqWalker) :
    seqAt s m k w = seqAt s' m' k w := by rw [hs, hm]

theorem mapAt_eq {kc kc' : Codec κ} {vc vc' : Codec α} (hk : kc.skip = kc'.skip) (hv : vc.skip = vc'.skip)
    {m m' : Rd (Option β)} (hm : m = m') : ∀ (k : Nat) (w : MapWalker), mapAt kc vc m k w = mapAt kc' vc' m' k w
  | 0, w => by
    unfold mapAt
    simp only [hk, hm]
  | k + 1, w => by
    have ih := mapAt_eq hk hv hm k
    subst hm
    unfold mapAt
    have : ∀ e : MapEntry, e.skipPair kc vc = e.skipPair kc' vc' := fun e => by unfold MapEntry.skipPair; rw [hk, hv]
    simp only [this, ih]

theorem mapKey_eq {kc kc' : Codec κ} {vc vc' : Codec α} (hk : kc.DecEq kc') (hv : vc.skip = vc'.skip)
    {m m' : Rd (Option β)} (hm : m = m') (bytes : Bytes) : ∀ (n : Nat) (w : MapWalker),
    mapKey kc vc m bytes n w = mapKey kc' vc' m' bytes n w
  | 0, _ => rfl
  | n + 1, w => by
    have ih := mapKey_eq hk hv hm bytes n
    subst hm
    unfold mapKey
    simp only [hk.dec, hk.enc, hv, ih]

theorem scanKey_eq {kc kc' : Codec κ} {vc vc' : Codec α} (hk : kc.DecEq kc') (hv : vc.skip = vc'.skip)
    {m m' : Rd (Option β)} (hm : m = m') (bytes : Bytes) : ∀ (n : Nat), scanKey kc vc m bytes n = scanKey kc' vc' m' bytes n
  | 0 => rfl
  | n + 1 => by
    have ih := scanKey_eq hk hv hm bytes n
    subst hm
    unfold scanKey
    simp only [hk.dec, hk.enc, hv, ih]

theorem seqFind_eq {c c' : Codec α} (hc : c.skip = c'.skip) {m m' : Rd (Option β)} (hm : m = m') (k : Nat)
    (view : Bytes) : seqFind c m k view = seqFind c' m' k view := by
  subst hm
  unfold seqFind
  simp only [hc]

theorem mapFind_eq {kc kc' : Codec κ} {vc vc' : Codec α} (hk : kc.DecEq kc') (hv : vc.skip = vc'.skip)
    {m m' : Rd (Option β)} (hm : m = m') (b view : Bytes) : mapFind kc vc m b view = mapFind kc' vc' m' b view := by
  subst hm
  unfold mapFind
  simp only [scanKey_eq hk hv rfl]

end

section
variable {ι : Type} {β : Type} {E : Env ι} {c' : (i : ι) → Codec (E.X i)} {cfg : Cfg}
  {leaf inner : Ty ι → Prop} {ext : ι → Prop} {get get' : (t : Ty ι) → Get (t.denote E.X) β} {x x' : ι → Rd (Option β)}

theorem Ty.walkStep_eq (hx : ∀ i, (E.extC i).SkipEq (c' i))
    (hleaf : ∀ t, leaf t → (t.codec cfg E).DecEq (t.codec cfg (E.unlimitedWith c')))
    (hget : ∀ t : Ty ι, t.pathFree = true → inner t →
      (get t).Same (t.codec cfg E) (t.codec cfg (E.unlimitedWith c')) (get' t))
    (hext : ∀ i, ext i → x i = x' i) (s : Step) : ∀ t : Ty ι, t.pathFree = true → t.sparingStep leaf inner ext s →
      t.walkStep cfg E get x s = t.walkStep cfg (E.unlimitedWith c') get' x' s := by
  have skip := fun t (ht : Ty.pathFree t = true) => (Ty.codec_skipEq (E := E) (c' := c') cfg hx t ht).skip
  have seq : ∀ coll t : Ty ι, t.pathFree = true → (∀ k, s = .elem k → inner t) →
      Ty.walkStep.seqStep cfg E get s coll t = Ty.walkStep.seqStep cfg (E.unlimitedWith c') get' s coll t := by
    intro coll t ht hi
    unfold Ty.walkStep.seqStep
    cases s <;> try rfl
    rename_i k
    refine congrArg (Bind.bind (coll.walk cfg)) (funext fun w => ?_)
    cases w <;> try rfl
    exact seqAt_eq (skip t ht) (hget t ht (hi k rfl)).read k _
  have map : ∀ coll k v : Ty ι, k.pathFree = true → v.pathFree = true → (∀ j, s = .value j → inner v) →
      (∀ b, s = .key b → leaf k ∧ inner v) →
      Ty.walkStep.mapStep cfg E get s coll k v = Ty.walkStep.mapStep cfg (E.unlimitedWith c') get' s coll k v := by
    intro coll k v hk hv h1 h2
    unfold Ty.walkStep.mapStep
    cases s <;> try rfl
    · rename_i j
      refine congrArg (Bind.bind (coll.walk cfg)) (funext fun w => ?_)
      cases w <;> try rfl
      exact mapAt_eq (skip k hk) (skip v hv) (hget v hv (h1 j rfl)).read j _
    · rename_i b
      refine congrArg (Bind.bind (coll.walk cfg)) (funext fun w => ?_)
      cases w <;> try rfl
      exact mapKey_eq (hleaf k (h2 b rfl).1) (skip v hv) (hget v hv (h2 b rfl).2).read b _ _
  intro t ht h
  induction t with
  | option t =>
    cases s <;> try rfl
    have hg := hget t ht (h rfl)
    simp only [Ty.walkStep]
    cases hg1 : get t <;> cases hg2 : get' t <;> rw [hg1, hg2] at hg <;> cases hg
    · rename_i out hd
      simp only [OptionWalker.decode, hd]
      rfl
    · rfl
  | result t e =>
    simp only [Ty.pathFree, Bool.and_eq_true] at ht
    cases s <;> try rfl
    · have hr := (hget t ht.1 (h.1 rfl)).read
      refine congrArg (Bind.bind ((Ty.result t e).walk cfg)) (funext fun w => ?_)
      cases w <;> try rfl
      dsimp only
      rw [hr]
      rfl
    · have hr := (hget e ht.2 (h.2 rfl)).read
      refine congrArg (Bind.bind ((Ty.result t e).walk cfg)) (funext fun w => ?_)
      cases w <;> try rfl
      dsimp only
      rw [hr]
      rfl
  | vec t | vector t | btreeSet t | hashSet t | binaryHeap t => exact seq _ t ht h
  | btreeMap k v | hashMap k v =>
    simp only [Ty.pathFree, Bool.and_eq_true] at ht
    exact map _ k v ht.1 ht.2 h.1 h.2
  | wrap t ih => exact ih ht h
  | ext i => exact hext i h
  | _ => rfl

theorem Ty.viewStep_eq (hx : ∀ i, (E.extC i).SkipEq (c' i))
    (hleaf : ∀ t, leaf t → (t.codec cfg E).DecEq (t.codec cfg (E.unlimitedWith c')))
    (hget : ∀ t : Ty ι, t.pathFree = true → inner t →
      (get t).Same (t.codec cfg E) (t.codec cfg (E.unlimitedWith c')) (get' t))
    (s : Step) (view : Bytes) : ∀ t : Ty ι, t.pathFree = true → t.sparingStep leaf inner ext s →
      t.viewStep cfg E get s view = t.viewStep cfg (E.unlimitedWith c') get' s view := by
  have skip := fun t (ht : Ty.pathFree t = true) => (Ty.codec_skipEq (E := E) (c' := c') cfg hx t ht).skip
  have seq : ∀ t : Ty ι, t.pathFree = true → ∀ k, inner t →
      seqFind (t.codec cfg E) ((get t).read (t.codec cfg E)) k view =
        seqFind (t.codec cfg (E.unlimitedWith c')) ((get' t).read (t.codec cfg (E.unlimitedWith c'))) k view := by
    intro t ht k hi
    exact seqFind_eq (skip t ht) (hget t ht hi).read k view
  have map : ∀ k v : Ty ι, k.pathFree = true → v.pathFree = true → leaf k → inner v → ∀ b,
      mapFind (k.codec cfg E) (v.codec cfg E) ((get v).read (v.codec cfg E)) b view =
        mapFind (k.codec cfg (E.unlimitedWith c')) (v.codec cfg (E.unlimitedWith c'))
          ((get' v).read (v.codec cfg (E.unlimitedWith c'))) b view := by
    intro k v hk hv hl hi b
    exact mapFind_eq (hleaf k hl) (skip v hv) (hget v hv hi).read b view
  intro t ht h
  cases t <;> try rfl
  case vec t => cases s <;> first | exact seq t ht _ (h _ rfl) | rfl
  case vector t => cases s <;> first | exact seq t ht _ (h _ rfl) | rfl
  case btreeMap k v =>
    simp only [Ty.pathFree, Bool.and_eq_true] at ht
    cases s <;> first | exact map k v ht.1 ht.2 (h.2 _ rfl).1 (h.2 _ rfl).2 _ | rfl
  case hashMap k v =>
    simp only [Ty.pathFree, Bool.and_eq_true] at ht
    cases s <;> first | exact map k v ht.1 ht.2 (h.2 _ rfl).1 (h.2 _ rfl).2 _ | rfl

end

/-- Values of a flat type are read without a request. -/
theorem Ty.codec_flat {ι : Type} {E : Env ι} {c' : (i : ι) → Codec (E.X i)} (cfg : Cfg) (t : Ty ι) (h : t.flat = true) :
    t.codec cfg E = t.codec cfg (E.unlimitedWith c') := by
  induction t with
  | option t ih => exact congrArg (optionC cfg) (ih h)
  | bound t ih => exact congrArg (boundC cfg) (ih h)
  | array n t ih => exact congrArg (arrayC n) (ih h)
  | result s t ihs iht =>
    simp only [Ty.flat, Bool.and_eq_true] at h
    simp only [Ty.codec, ihs h.1, iht h.2]
    rfl
  | pair s t ihs iht =>
    simp only [Ty.flat, Bool.and_eq_true] at h
    simp only [Ty.codec, ihs h.1, iht h.2]
    rfl
  | unit | bool | int | float | notNan | char | uuid | duration | systemTime => rfl
  | _ => simp only [Ty.flat, Bool.false_eq_true] at h

/-! ### Derived types -/

section
variable {V : Type} {β : Type}

/-- The two declarations differ only in what their decoders do where memory is refused. -/
structure FieldDecl.Skim (f g : FieldDecl V) : Prop extends f.Upto False 0 g where
  plainSkip : f.plain.skip = g.plain.skip
  indexedSkip : f.indexed.skip = g.indexed.skip

theorem FieldDecl.Skim.optimisedSkip {f g : FieldDecl V} (h : f.Skim g) : f.optimisedC.skip = g.optimisedC.skip := by
  unfold FieldDecl.optimisedC FieldDecl.isIndexed
  rw [h.opts]
  split
  · exact h.indexedSkip
  · exact h.plainSkip

theorem FieldDecl.Skim.present {f g : FieldDecl V} (h : f.Skim g) (r : Nat) :
    StructRepr.present f r = StructRepr.present g r := by unfold StructRepr.present; rw [h.opts]

theorem FieldDecl.Skim.skipField {f g : FieldDecl V} (h : f.Skim g) (w : StructRepr) :
    w.skipField f = w.skipField g := by
  cases w <;> simp only [StructRepr.skipField, h.present, h.optimisedSkip, h.plainSkip]

variable {φ : Type} {d d' : φ → FieldDecl V}

theorem passFields_skips : ∀ (fs : List φ) (i n : Nat) (w : StructRepr), (∀ f ∈ fs, (d f).Skim (d' f)) →
    passFields i (fs.map d) (List.replicate n false) w = passFields i (fs.map d') (List.replicate n false) w
  | [], i, n, w, _ => by cases n <;> rfl
  | _ :: _, i, 0, w, _ => rfl
  | f :: fs, i, n + 1, w, h => by
    have ih := fun w => passFields_skips fs (i + 1) n w fun g hg => h g (List.mem_cons_of_mem _ hg)
    simp only [List.map_cons, List.replicate_succ, passFields, (h f List.mem_cons_self).skipField, ih]

/-- Not the bytes of a converted value. -/
def StructRepr.Direct : StructRepr → Prop
  | .converted .. => False
  | _ => True

theorem skipField_direct {f : FieldDecl V} {w : StructRepr} (h : w.Direct) : (w.skipField f).Yields StructRepr.Direct := by
  cases w with
  | wire r => exact Rd.Yields.bind_any fun _ => Rd.Yields.pure trivial
  | indexed b n => exact Rd.Yields.pure trivial
  | converted b c => exact h.elim

theorem passFields_direct : ∀ (fs : List (FieldDecl V)) (i n : Nat) (w : StructRepr), w.Direct →
    (passFields i fs (List.replicate n false) w).Yields fun p => p.2.Direct
  | [], i, n, w, h => by cases n <;> exact Rd.Yields.pure h
  | _ :: _, i, 0, w, h => Rd.Yields.pure h
  | f :: fs, i, n + 1, w, h =>
    (skipField_direct h).bind fun w' h' => (passFields_direct fs (i + 1) n w' h').bind fun _ h'' => Rd.Yields.pure h''

theorem walkStruct_yields_direct (cfg : Cfg) (h : List Entry) (fs : List (FieldDecl V)) (hc : structHasConvert fs = false) :
    (walkStruct cfg h fs).Yields StructRepr.Direct := by
  unfold walkStruct
  refine Rd.Yields.bind_any fun r => ?_
  split
  · exact Rd.Yields.fail _
  · simp only [hc, Bool.false_and, Bool.false_eq_true, if_false]
    split
    · split
      · exact Rd.Yields.bind_any fun _ => Rd.Yields.bind_any fun _ => Rd.Yields.pure trivial
      · exact Rd.Yields.bind_any fun _ => Rd.Yields.pure trivial
    · exact Rd.Yields.pure trivial

theorem walkStruct_eq (cfg : Cfg) (h : List Entry) (fs : List φ) (hl : ∀ f ∈ fs, (d f).Skim (d' f))
    (hc : structHasConvert (fs.map d) = false) (hc' : structHasConvert (fs.map d') = false) :
    walkStruct cfg h (fs.map d) = walkStruct cfg h (fs.map d') := by
  unfold walkStruct
  simp only [hc, hc', Bool.false_and, Bool.false_eq_true, if_false,
    aliveCount_map fs fun f hf => (hl f hf).toUpto]

theorem fieldAt_eq (fs : List φ) (hl : ∀ f ∈ fs, (d f).Skim (d' f)) (idx : Nat) {f g : FieldDecl V} (hf : f.Skim g)
    (hi : f.isIndexed = false) {get get' : Get V β} (hg : get.Same f.plain g.plain get') (w : StructRepr)
    (hw : w.Direct) : fieldAt (fs.map d) idx f get w = fieldAt (fs.map d') idx g get' w := by
  have hi' : g.isIndexed = false := by unfold FieldDecl.isIndexed at *; rw [← hf.opts]; exact hi
  cases hg with
  | decode out hd =>
    simp only [fieldAt, passFields_skips fs 0 idx w hl]
    refine Rd.bind_congr_of (passFields_direct _ 0 idx w hw) fun p hp => ?_
    have : p.2.decodeField idx f = p.2.decodeField idx g := by
      cases h : p.2 <;> simp only [StructRepr.decodeField, hf.present, hf.dflt, FieldDecl.optimisedC, hi, hi', hd,
        Bool.false_eq_true, if_false]
    simp only [this]
  | walk m =>
    cases w with
    | converted => exact hw.elim
    | indexed b n => rfl
    | wire r =>
      simp only [fieldAt, passFields_skips fs 0 idx _ hl]
      refine congrArg _ (funext fun p => ?_)
      cases h : p.2 <;> simp only [StructRepr.walkField, hf.present]

theorem viewAt_eq (fs : List φ) (hl : ∀ f ∈ fs, (d f).Skim (d' f)) (idx : Nat) {f g : FieldDecl V} (hf : f.Skim g)
    {v v' : Bytes → Res (Option β)} (hv : v = v') (w : StructRepr) (hw : w.Direct) :
    viewAt (fs.map d) idx f v w = viewAt (fs.map d') idx g v' w := by
  subst hv
  simp only [viewAt, passFields_skips fs 0 idx w hl]
  refine Rd.bind_congr_of (passFields_direct _ 0 idx w hw) fun p hp => ?_
  have : p.2.viewField idx f = p.2.viewField idx g := by
    cases h : p.2 with
    | wire r => simp only [StructRepr.viewField, hf.indexedSkip]
    | indexed => rfl
    | converted => rw [h] at hp; exact hp.elim
  simp only [this]

/-! ### Enums -/

/-- Not the bytes of a converted value. -/
def EnumRepr.Direct : EnumRepr → Prop
  | .converted .. => False
  | _ => True

theorem walkOptimisedEnum_yields_direct (vs : List (VariantDecl V)) (r : Nat) : (walkOptimisedEnum vs r).Yields EnumRepr.Direct := by
  unfold walkOptimisedEnum
  refine Rd.Yields.bind_any fun p => ?_
  dsimp only
  split
  · exact Rd.Yields.fail _
  · split
    · exact Rd.Yields.fail _
    · exact Rd.Yields.bind_any fun _ => Rd.Yields.pure trivial

theorem walkEnum_yields_direct (cfg : Cfg) (h : List Entry) (vs : List (VariantDecl V)) (hc : enumHasConvert vs = false) :
    (walkEnum cfg h vs).Yields EnumRepr.Direct := by
  unfold walkEnum
  refine Rd.Yields.bind_any fun r => ?_
  split
  · exact Rd.Yields.fail _
  · simp only [hc, Bool.false_and, Bool.false_eq_true, if_false]
    split
    · exact walkOptimisedEnum_yields_direct _ _
    · exact Rd.Yields.bind_any fun _ => Rd.Yields.pure trivial

variable {ψ : Type} {e e' : ψ → VariantDecl V} {F : ψ → List φ}

theorem walkTable_eq (vs : List ψ) (h : ∀ v ∈ vs, (e v).Upto False 0 (F v) d d' (e' v)) (r id : Nat) :
    walkTable (vs.map e) r id = walkTable (vs.map e') r id := by
  obtain ⟨l, hl, h1, h2⟩ := variantArms_upto vs h r
  unfold walkTable
  rw [h1, h2, List.findRev?_eq_find?_reverse, List.findRev?_eq_find?_reverse, ← List.map_reverse, ← List.map_reverse]
  rcases find_arms (l := l.reverse) (e := e) (e' := e') (P := fun a => a.1 == id) (fun a ha => rfl) with
    ⟨e1, e2⟩ | ⟨a, ha, e1, e2⟩
  · rw [e1, e2]
  · rw [e1, e2]
    simp only [(h _ (hl a (List.mem_reverse.1 ha))).opts]

theorem walkEnum_eq (cfg : Cfg) (h : List Entry) (vs : List ψ) (hl : ∀ v ∈ vs, (e v).Upto False 0 (F v) d d' (e' v))
    (hc : enumHasConvert (vs.map e) = false) (hc' : enumHasConvert (vs.map e') = false) :
    walkEnum cfg h (vs.map e) = walkEnum cfg h (vs.map e') := by
  unfold walkEnum walkOptimisedEnum
  simp only [hc, hc', Bool.false_and, Bool.false_eq_true, if_false, walkTable_eq vs hl]

theorem isVariant_eq (vs : List ψ) (hl : ∀ v ∈ vs, (e v).Upto False 0 (F v) d d' (e' v)) (n : Nat) {v : ψ} (hv : v ∈ vs)
    (w : EnumRepr) : w.isVariant (vs.map e) n (e v) = w.isVariant (vs.map e') n (e' v) := by
  have h := hl v hv
  cases w <;> simp only [EnumRepr.isVariant, discsAt_map vs hl, h.ident, h.existsAt]

theorem variantAt_eq (vs : List ψ) (hl : ∀ v ∈ vs, (e v).Upto False 0 (F v) d d' (e' v)) (n : Nat) {v : ψ} (hv : v ∈ vs)
    {f g : FieldDecl V} {get get' : Get V β} (hg : get.Same f.plain g.plain get') (w : EnumRepr)
    (hw : w.Direct) : variantAt (vs.map e) n (e v) f get w = variantAt (vs.map e') n (e' v) g get' w := by
  have hv := isVariant_eq vs hl n hv w
  unfold variantAt
  rw [hv]
  split
  · cases hg with
    | decode out hd => cases w <;> simp only [EnumRepr.decodeVariant, hv, hd]
    | walk m =>
      cases w with
      | wire r x => simp only [EnumRepr.intoVariant, hv]
      | borrowed b x => simp only [EnumRepr.viewSingle, hv]
      | converted => exact hw.elim
  · rfl

end

/-! ### Programs -/

section
variable {ι : Type} {K : ι → Kind} [DecidableEq ι]

omit [DecidableEq ι] in
theorem skipIndexedMap_eq {k k' v v' : Rd Unit} (hk : k = k') (hv : v = v') : skipIndexedMap k v = skipIndexedMap k' v' := by
  rw [hk, hv]

omit [DecidableEq ι] in
theorem indexedOf_skip {E : Env ι} {c' : (i : ι) → Codec (E.X i)} (cfg : Cfg) (hc : ∀ i, (E.extC i).SkipEq (c' i))
    (t : Ty ι) (ht : t.pathFree = true) : (indexedOf cfg E t).skip = (indexedOf cfg (E.unlimitedWith c') t).skip := by
  have hs := fun (t : Ty ι) (ht : t.pathFree = true) => (Ty.codec_skipEq (E := E) (c' := c') cfg hc t ht).skip
  cases t
  case vec t => exact congrArg skipIndexedSeq (hs t ht)
  case vector t => exact congrArg skipIndexedSeq (hs t ht)
  case btreeSet t => exact congrArg skipIndexedSeq (hs t ht)
  case hashSet t => exact congrArg skipIndexedSeq (hs t ht)
  case btreeMap k v =>
    simp only [Ty.pathFree, Bool.and_eq_true] at ht
    exact skipIndexedMap_eq (hs k ht.1) (hs v ht.2)
  case hashMap k v =>
    simp only [Ty.pathFree, Bool.and_eq_true] at ht
    exact skipIndexedMap_eq (hs k ht.1) (hs v ht.2)
  all_goals exact hs _ ht

theorem Field.decl_skim (cfg : Cfg) (I : Impls K) (n : Nat) {c c' : (i : ι) → Codec (Values K n i)}
    (hu : ∀ i, (c i).dec.Upto False 0 (c' i).dec) (hw : ∀ i, (c' i).dec.Eats 1)
    (hc : ∀ i, (c i).SkipEq (c' i)) (f : Field K) (hf : f.ty.pathFree = true) :
    (f.decl cfg I n c).Skim (f.decl cfg I.unlimited n c') where
  toUpto := f.decl_upto cfg I n nofun hu hw nofun
  plainSkip := (Ty.codec_skipEq (E := I.env n c) (c' := c') cfg hc f.ty hf).skip
  indexedSkip := indexedOf_skip (E := I.env n c) (c' := c') cfg hc f.ty hf

theorem Body.walkStep_eq {β : Type} (cfg : Cfg) (I : Impls K) (n : Nat) {c c' : (i : ι) → Codec (Values K n i)}
    (hu : ∀ i, (c i).dec.Upto False 0 (c' i).dec) (hw : ∀ i, (c' i).dec.Eats 1)
    (hc : ∀ i, (c i).SkipEq (c' i)) (h : List Entry) (last : Bool) {get get' : Ty ι → Get (DynAt K n) β}
    {view view' : Ty ι → Bytes → Res (Option β)} {inner vinner : Ty ι → Prop}
    (hget : ∀ f : Field K, f.ty.pathFree = true → inner f.ty →
      (get f.ty).Same (f.decl cfg I n c).plain (f.decl cfg I.unlimited n c').plain (get' f.ty))
    (hview : ∀ t : Ty ι, t.pathFree = true → vinner t → view t = view' t) (s : Step) :
    {k : Kind} → (b : Body K k) → (∀ t ∈ b.types, t.pathFree = true) → b.sparingStep last inner vinner s →
      b.walkStep cfg I c h last get view s = b.walkStep cfg I.unlimited c' h last get' view' s
  | _, .struct fs, ht, hb => by
    have hlike := fun f (hf : f ∈ fs) => Field.decl_skim cfg I n hu hw hc f (ht _ (List.mem_map_of_mem hf))
    cases s <;> try rfl
    rename_i name
    obtain ⟨hconv, hfield⟩ := hb name rfl
    have hno : ∀ (I : Impls K) (c : (i : ι) → Codec (Values K n i)), structHasConvert (fs.map (·.decl cfg I n c)) = false := by
      intro I c
      simp only [structHasConvert, List.any_map, List.any_eq_false, Function.comp]
      intro f hf
      simp [Field.decl, tyField, hconv f hf]
    simp only [Body.walkStep]
    split
    · rename_i j hj
      split
      · rename_i f hfj
        have hmem : f ∈ fs.filter (·.existsAt h.length) := List.mem_of_getElem? hfj
        have hfs := (List.mem_filter.1 hmem).1
        have hname : f.name = name := by
          have := (List.findIdx?_eq_some_iff_getElem.1 hj)
          obtain ⟨hlt, h1, -⟩ := this
          rw [List.getElem?_eq_getElem hlt] at hfj
          cases hfj
          simpa using h1
        have hf := hfield f hfs hname
        rw [walkStruct_eq cfg h fs hlike (hno _ _) (hno _ _)]
        refine Rd.bind_congr_of (walkStruct_yields_direct cfg h _ (hno _ _)) fun w hd => ?_
        have hlive := fun g (hg : g ∈ fs.filter (·.existsAt h.length)) => hlike g (List.mem_filter.1 hg).1
        by_cases hi : f.isIndexed = true
        · rw [if_pos hi] at hf
          simp only [hi, hf.1, Bool.not_false, Bool.and_self, if_true]
          exact viewAt_eq _ hlive j (hlike f hfs) (hview _ (ht _ (List.mem_map_of_mem hfs)) hf.2) w hd
        · rw [if_neg hi] at hf
          simp only [Bool.not_eq_true] at hi
          simp only [hi, Bool.false_and, Bool.false_eq_true, if_false]
          exact fieldAt_eq _ hlive j (hlike f hfs) hi (hget f (ht _ (List.mem_map_of_mem hfs)) hf) w hd
      · rfl
    · rfl
  | _, .enum vs, ht, hb => by
    cases s <;> try rfl
    rename_i ident
    obtain ⟨hconv, hfield⟩ := hb ident rfl
    have hup : ∀ v ∈ vs, (v.decl cfg I n c).Upto False 0 v.fields (fun f : Field K => f.decl cfg I n c)
        (fun f => f.decl cfg I.unlimited n c') (v.decl cfg I.unlimited n c') := fun v _ =>
      ⟨rfl, rfl, rfl, rfl, rfl, fun f _ => f.decl_upto cfg I n nofun hu hw nofun⟩
    have hno : ∀ (I : Impls K) (c : (i : ι) → Codec (Values K n i)), enumHasConvert (vs.map (·.decl cfg I n c)) = false := by
      intro I c
      simp only [enumHasConvert, List.any_map, List.any_eq_false, Function.comp]
      intro v hv
      obtain ⟨h1, h2⟩ := hconv v hv
      simp only [Variant.decl, h1, Option.isSome_none, Bool.false_or, structHasConvert, List.any_map, Bool.not_eq_true,
        List.any_eq_false, Function.comp]
      intro f hf
      simp [Field.decl, tyField, h2 f hf]
    simp only [Body.walkStep]
    split
    · rename_i v hv
      split
      · rename_i f hf
        have hvs := (List.mem_filter.1 (List.mem_of_find?_eq_some hv)).1
        have hvi : v.ident = ident := by simpa using List.find?_some hv
        have hfv : f ∈ v.fields := by
          have : f ∈ v.fields.filter (·.existsAt h.length) := by rw [hf]; exact List.mem_singleton.2 rfl
          exact (List.mem_filter.1 this).1
        have hft := ht _ (List.mem_flatMap.2 ⟨v, hvs, List.mem_map_of_mem hfv⟩)
        rw [walkEnum_eq cfg h vs hup (hno _ _) (hno _ _)]
        refine Rd.bind_congr_of (walkEnum_yields_direct cfg h _ (hno _ _)) fun w hd => ?_
        exact variantAt_eq vs hup h.length hvs (hget f hft (hfield v hvs hvi f hfv)) w hd
      · rfl
    · rfl
  | _, .foreign _, _, _ => rfl

end

section
variable {ι : Type} [DecidableEq ι]

mutual

theorem Program.walkPath_eq (cfg : Cfg) (P : Program ι) (I : Impls P.kind)
    (hP : ∀ i, ∀ t ∈ (P.body i).types, t.pathFree = true) {leaf : Ty ι → Prop}
    (hleaf : ∀ n t, leaf t → (t.codec cfg (I.env n (P.codec cfg I n))).DecEq
      (t.codec cfg (I.unlimited.env n (P.codec cfg I.unlimited n)))) :
    ∀ (p : List Step) (n : Nat) (t : Ty ι), t.pathFree = true → P.Sparing leaf p t →
      P.walkPath cfg I p n t = P.walkPath cfg I.unlimited p n t
  | [], n, t, _, h => by
    unfold Program.walkPath
    rw [(hleaf n t h).dec]
    rfl
  | s :: p, n, t, ht, h => by
    have hget : ∀ (n : Nat) (t : Ty ι), t.pathFree = true → P.Sparing leaf p t →
        Get.Same (β := Found P.kind) (t.codec cfg (I.env n (P.codec cfg I n)))
          (t.codec cfg (I.unlimited.env n (P.codec cfg I.unlimited n)))
          (if p = [] then .decode fun v => ⟨n, t, v⟩ else .walk (P.walkPath cfg I p n t))
          (if p = [] then .decode fun v => ⟨n, t, v⟩ else .walk (P.walkPath cfg I.unlimited p n t)) := by
      intro n t ht hp
      by_cases hpe : p = []
      · subst hpe
        exact .decode _ (hleaf n t hp).dec
      · rw [if_neg hpe, if_neg hpe, Program.walkPath_eq cfg P I hP hleaf p n t ht hp]
        exact .walk _
    unfold Program.walkPath
    refine Ty.walkStep_eq (E := I.env n (P.codec cfg I n)) (c' := P.codec cfg I.unlimited n)
      (Program.codec_skipEq cfg P I hP n) (hleaf n) (hget n) (fun i hi => ?_) s t ht h
    cases n with
    | zero => rfl
    | succ n =>
      refine Body.walkStep_eq cfg I n (Program.codec_upto cfg P I nofun nofun n) (Program.codec_eats cfg P I n)
        (Program.codec_skipEq cfg P I hP n) (P.history i) p.isEmpty (fun f hf hi => ?_) (fun t ht hv => ?_) s
        (P.body i) (hP i) hi
      · by_cases hpe : p = []
        · subst hpe
          refine .decode _ ?_
          exact congrArg (fun m : Rd (f.ty.denote (Values P.kind n)) => (Sigma.mk f.ty ·) <$> m) (hleaf n f.ty hi).dec
        · rw [if_neg hpe, if_neg hpe, Program.walkPath_eq cfg P I hP hleaf p n f.ty hf hi]
          exact .walk _
      · funext view
        exact Program.viewPath_eq cfg P I hP hleaf p n t ht hv view

theorem Program.viewPath_eq (cfg : Cfg) (P : Program ι) (I : Impls P.kind)
    (hP : ∀ i, ∀ t ∈ (P.body i).types, t.pathFree = true) {leaf : Ty ι → Prop}
    (hleaf : ∀ n t, leaf t → (t.codec cfg (I.env n (P.codec cfg I n))).DecEq
      (t.codec cfg (I.unlimited.env n (P.codec cfg I.unlimited n)))) :
    ∀ (p : List Step) (n : Nat) (t : Ty ι), t.pathFree = true → P.SparingView leaf p t → ∀ view,
      P.viewPath cfg I p n t view = P.viewPath cfg I.unlimited p n t view
  | [], _, _, _, _, _ => by simp only [Program.viewPath]
  | s :: p, n, t, ht, h, view => by
    have hget : ∀ (t : Ty ι), t.pathFree = true → P.Sparing leaf p t →
        Get.Same (β := Found P.kind) (t.codec cfg (I.env n (P.codec cfg I n)))
          (t.codec cfg (I.unlimited.env n (P.codec cfg I.unlimited n)))
          (if p = [] then .decode fun v => ⟨n, t, v⟩ else .walk (P.walkPath cfg I p n t))
          (if p = [] then .decode fun v => ⟨n, t, v⟩ else .walk (P.walkPath cfg I.unlimited p n t)) := by
      intro t ht hp
      by_cases hpe : p = []
      · subst hpe
        exact .decode _ (hleaf n t hp).dec
      · rw [if_neg hpe, if_neg hpe, Program.walkPath_eq cfg P I hP hleaf p n t ht hp]
        exact .walk _
    unfold Program.viewPath
    exact Ty.viewStep_eq (E := I.env n (P.codec cfg I n)) (c' := P.codec cfg I.unlimited n)
      (Program.codec_skipEq cfg P I hP n) (hleaf n) hget s view t ht h

end

end

end Revision
