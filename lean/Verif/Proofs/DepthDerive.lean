import Verif.Proofs.Depth
import Verif.Proofs.StreamErr

/-! Helper lemmas: derived types at two depths do the same on short inputs. -/

namespace Revision

open Rd.Maps

section
variable {V W F : Type} {L : Nat} {g : V → W}

/-- Two declarations of a field of the same name and options. -/
structure FieldDecl.Like (o : FieldDecl V) (n : FieldDecl W) : Prop where
  name : n.name = o.name
  opts : n.opts = o.opts

/-- Two declarations of a field that differ in the values they deal with. -/
structure FieldDecl.Maps (L : Nat) (g : V → W) (o : FieldDecl V) (n : FieldDecl W) : Prop extends o.Like n where
  plain : o.plain.Maps L g n.plain
  fixedLe : o.fixedLe.Maps L g n.fixedLe
  bulk : o.bulk.Maps L g n.bulk
  indexed : o.indexed.Maps L g n.indexed

/-- The functions of the two declarations do the same. -/
structure FieldDecl.SameFuns (g : V → W) (o : FieldDecl V) (n : FieldDecl W) : Prop where
  dflt : ∀ r, n.dflt r = g <$> o.dflt r
  convert : ∀ r v this, n.convert r (g v) (this.map g) = List.map g <$> o.convert r v this

theorem FieldDecl.Like.existsAt {o : FieldDecl V} {n : FieldDecl W} (h : o.Like n) : n.existsAt = o.existsAt := by
  funext r; unfold FieldDecl.existsAt; rw [h.opts]

theorem FieldDecl.Maps.legacyC {o : FieldDecl V} {n : FieldDecl W} (h : o.Maps L g n) :
    o.legacyC.Maps L g n.legacyC := by
  unfold FieldDecl.legacyC
  rw [h.opts]
  split
  · exact h.fixedLe
  · split
    · exact h.bulk
    · exact h.plain

theorem FieldDecl.Maps.wire {o : FieldDecl V} {n : FieldDecl W} (h : o.Maps L g n) (e : Entry) :
    (o.wire e).Maps L g (n.wire e) := by
  unfold FieldDecl.wire FieldDecl.optimisedC FieldDecl.isIndexed
  rw [h.opts]
  split
  · split
    · exact h.indexed
    · exact h.plain
  · exact h.legacyC

theorem FieldDecl.Maps.removedDec {o : FieldDecl V} {n : FieldDecl W} (h : o.Maps L g n) (e : Entry) :
    (o.removedDec e).Maps L g (n.removedDec e) := by
  unfold FieldDecl.removedDec
  split
  · exact h.plain.dec
  · exact h.legacyC.dec

/-- Two declarations of a field that are skipped alike. -/
structure FieldDecl.SkipMaps (L : Nat) (o : FieldDecl V) (n : FieldDecl W) : Prop extends o.Like n where
  plain : o.plain.SkipMaps L n.plain
  fixedLe : o.fixedLe.SkipMaps L n.fixedLe

theorem FieldDecl.Maps.skips {o : FieldDecl V} {n : FieldDecl W} (h : o.Maps L g n) : o.SkipMaps L n :=
  ⟨h.toLike, h.plain.skips, h.fixedLe.skips⟩

theorem FieldDecl.SkipMaps.legacySkip {o : FieldDecl V} {n : FieldDecl W} (h : o.SkipMaps L n) :
    o.legacySkip.Maps L (fun u => u) n.legacySkip := by
  unfold FieldDecl.legacySkip
  rw [h.opts]
  split
  · exact h.fixedLe.skip
  · exact h.plain.skip

theorem FieldDecl.SkipMaps.legacySkipS {o : FieldDecl V} {n : FieldDecl W} (h : o.SkipMaps L n) :
    o.legacySkipS.Maps L (fun u => u) n.legacySkipS := by
  unfold FieldDecl.legacySkipS
  rw [h.opts]
  split
  · exact h.fixedLe.skip
  · exact h.plain.skipS

variable {o : F → FieldDecl V} {n : F → FieldDecl W}

/-- The variables of the other depth. -/
def Binds.map (g : V → W) (env : Binds V) : Binds W := List.map (fun p => (p.1, g p.2)) env

theorem decodeFields_maps {live removed : FieldDecl V → Rd V} {live' removed' : FieldDecl W → Rd W} {cur tgt : Nat} :
    ∀ (fs : List F) (env : Binds V), (∀ f ∈ fs, (o f).Maps L g (n f)) → (∀ f ∈ fs, (o f).SameFuns g (n f)) →
    (∀ f ∈ fs, (live (o f)).Maps L g (live' (n f))) →
    (∀ f ∈ fs, (removed (o f)).Maps L g (removed' (n f))) →
    (decodeFields live removed cur tgt (fs.map o) env).Maps L (Binds.map g)
      (decodeFields live' removed' cur tgt (fs.map n) (env.map g))
  | [], env, _, _, _, _ => ret env
  | f :: fs, env, h, hs, hl, hr => by
    have ih := fun env => decodeFields_maps (cur := cur) (tgt := tgt) fs env
      (fun g hg => h g (List.mem_cons_of_mem _ hg)) (fun g hg => hs g (List.mem_cons_of_mem _ hg))
      (fun g hg => hl g (List.mem_cons_of_mem _ hg)) (fun g hg => hr g (List.mem_cons_of_mem _ hg))
    have hf := h f List.mem_cons_self
    simp only [List.map_cons, decodeFields, hf.existsAt, hf.name]
    exact branch (seq (hl f List.mem_cons_self) fun v => ih (((o f).name, v) :: env))
      (branch (seq (lift ((hs f List.mem_cons_self).dflt _)) fun v => ih (((o f).name, v) :: env))
        (branch (seq (hr f List.mem_cons_self) fun v => ih (((o f).name, v) :: env)) (ih env)))

theorem useBind_map (env : Binds V) (name : String) : useBind (env.map g) name = g <$> useBind env name := by
  unfold useBind Binds.map
  have : List.lookup name (List.map (fun p => (p.1, g p.2)) env) = (env.lookup name).map g := by
    induction env with
    | nil => rfl
    | cons p env ih =>
      obtain ⟨x, v⟩ := p
      simp only [List.map_cons, List.lookup_cons]
      cases name == x
      · exact ih
      · rfl
  rw [this]
  cases env.lookup name <;> rfl

theorem construct_maps {r : Nat} {env : Binds V} : ∀ (fs : List F), (∀ f ∈ fs, (o f).Maps L g (n f)) →
    construct r (env.map g) (fs.map n) = List.map g <$> construct r env (fs.map o)
  | [], _ => rfl
  | f :: fs, h => by
    have hf := h f List.mem_cons_self
    simp only [List.map_cons, construct, hf.existsAt, hf.name, useBind_map,
      construct_maps fs fun g hg => h g (List.mem_cons_of_mem _ hg)]
    split
    · cases useBind env (o f).name with
      | ok v => cases construct r env (fs.map o) <;> rfl
      | err e => rfl
      | panic => rfl
    · rfl

theorem runConverts_maps {cur tgt : Nat} {env : Binds V} : ∀ (fs : List F) (this : List V),
    (∀ f ∈ fs, (o f).Maps L g (n f)) → (∀ f ∈ fs, (o f).SameFuns g (n f)) →
    runConverts cur tgt (env.map g) (fs.map n) (this.map g) =
      List.map g <$> runConverts cur tgt env (fs.map o) this
  | [], _, _, _ => rfl
  | f :: fs, this, h, hs => by
    have hf := h f List.mem_cons_self
    have ih := fun this => runConverts_maps (cur := cur) (tgt := tgt) (env := env) fs this
      (fun g hg => h g (List.mem_cons_of_mem _ hg)) (fun g hg => hs g (List.mem_cons_of_mem _ hg))
    simp only [List.map_cons, runConverts, hf.existsAt, hf.name, useBind_map]
    split
    · cases useBind env (o f).name with
      | ok v =>
        simp only [Res.map_ok, Res.ok_bind, (hs f List.mem_cons_self).convert]
        cases (o f).convert cur v this with
        | ok t => simp only [Res.map_ok, Res.ok_bind, ih]
        | err e => rfl
        | panic => rfl
      | err e => rfl
      | panic => rfl
    · exact ih this

theorem aliveCount_maps {r : Nat} : ∀ (fs : List F), (∀ f ∈ fs, (o f).Like (n f)) →
    aliveCount (fs.map n) r = aliveCount (fs.map o) r
  | [], _ => rfl
  | f :: fs, h => by
    have hf := h f List.mem_cons_self
    have ih := aliveCount_maps (r := r) fs fun g hg => h g (List.mem_cons_of_mem _ hg)
    unfold aliveCount at *
    simp only [List.map_cons, List.filter_cons, hf.existsAt]
    split
    · simp only [List.length_cons, ih]
    · exact ih

theorem decodeStructBody_maps {live removed : FieldDecl V → Rd V} {live' removed' : FieldDecl W → Rd W} {cur tgt : Nat}
    (fs : List F) (h : ∀ f ∈ fs, (o f).Maps L g (n f)) (hs : ∀ f ∈ fs, (o f).SameFuns g (n f))
    (hl : ∀ f ∈ fs, (live (o f)).Maps L g (live' (n f)))
    (hr : ∀ f ∈ fs, (removed (o f)).Maps L g (removed' (n f))) :
    (decodeStructBody live removed cur tgt (fs.map o)).Maps L (List.map g)
      (decodeStructBody live' removed' cur tgt (fs.map n)) :=
  seq (decodeFields_maps fs [] h hs hl hr) fun _ => seq (lift (construct_maps fs h)) fun this =>
    lift (runConverts_maps fs this h hs)

theorem deserializeStructBody_maps (e : Entry) (tgt : Nat) (fs : List F) (h : ∀ f ∈ fs, (o f).Maps L g (n f))
    (hs : ∀ f ∈ fs, (o f).SameFuns g (n f)) :
    (deserializeStructBody e tgt (fs.map o)).Maps L (List.map g) (deserializeStructBody e tgt (fs.map n)) := by
  have hb := decodeStructBody_maps (cur := e.revision) (tgt := tgt) (live := fun f => (f.wire e).dec)
    (live' := fun f => (f.wire e).dec) (removed := fun f => f.removedDec e) (removed' := fun f => f.removedDec e) fs h
    hs (fun f hf => ((h f hf).wire e).dec) (fun f hf => (h f hf).removedDec e)
  unfold deserializeStructBody
  refine branch (same' readLengthPrefixed_eats fun s p r hs hp => ?_) hb
  have hl := readLengthPrefixed_length hp
  rw [aliveCount_maps fs fun f hf => (h f hf).toLike]
  exact branch (branch (fail _) (lift (hb.within (by simp; omega)))) (lift (hb.within (by omega)))

theorem skipFields_maps {skip : FieldDecl V → Rd Unit} {skip' : FieldDecl W → Rd Unit} {cur tgt : Nat} :
    ∀ (fs : List F), (∀ f ∈ fs, (o f).Like (n f)) → (∀ f ∈ fs, (skip (o f)).Maps L (fun u => u) (skip' (n f))) →
    (skipFields skip cur tgt (fs.map o)).Maps L (fun u => u) (skipFields skip' cur tgt (fs.map n))
  | [], _, _ => ret ()
  | f :: fs, h, hs => by
    have ih := skipFields_maps (cur := cur) (tgt := tgt) fs
      (fun g hg => h g (List.mem_cons_of_mem _ hg)) (fun g hg => hs g (List.mem_cons_of_mem _ hg))
    have hf := h f List.mem_cons_self
    have hk := hs f List.mem_cons_self
    simp only [List.map_cons, skipFields, hf.existsAt]
    exact branch (seq hk fun _ => ih) (branch ih (branch (seq hk fun _ => ih) ih))

theorem skipStructBody_maps (e : Entry) (tgt : Nat) (fs : List F) (h : ∀ f ∈ fs, (o f).SkipMaps L (n f)) :
    (skipStructBody e tgt (fs.map o)).Maps L (fun u => u) (skipStructBody e tgt (fs.map n)) :=
  branch (same readVarlenLen_eats fun _ => Rd.Maps.refl (advance_eats0 _))
    (skipFields_maps fs (fun f hf => (h f hf).toLike) fun f hf => (h f hf).legacySkip)

theorem skipSStructBody_maps (e : Entry) (tgt : Nat) (fs : List F) (h : ∀ f ∈ fs, (o f).SkipMaps L (n f)) :
    (skipSStructBody e tgt (fs.map o)).Maps L (fun u => u) (skipSStructBody e tgt (fs.map n)) :=
  branch (same readVarlenLen_eats fun _ => Rd.Maps.refl (consume_eats _))
    (skipFields_maps fs (fun f hf => (h f hf).toLike) fun f hf => (h f hf).legacySkipS)

/-- The revision takes a byte, so what the arms read is shorter. -/
theorem dispatch_maps (cfg : Cfg) (h : List Entry) {f : α → β} {arm : Entry → Rd α} {arm' : Entry → Rd β}
    (ha : ∀ e, (arm e).Maps L f (arm' e)) :
    (dispatchRevision cfg h arm).Maps (L + 1) f (dispatchRevision cfg h arm') := by
  intro s hs
  simp only [dispatchRevision, Rd.bind_run]
  cases hr : readU16 cfg s with
  | ok p =>
    have := readU16_eats cfg s p.1 p.2 hr
    dsimp only
    cases h.find? (fun e => e.revision == p.1) with
    | none => exact ⟨rfl, nofun⟩
    | some e =>
      obtain ⟨h1, h2⟩ := ha e p.2 (by omega)
      exact ⟨h1, fun a r e => by have := h2 a r e; omega⟩
  | err e => exact ⟨rfl, nofun⟩
  | panic => exact ⟨rfl, nofun⟩

/-! ### Enums -/

/-- A value of an enum at the other depth. -/
def EnumVal.map (g : V → W) (x : EnumVal V) : EnumVal W := ⟨x.variant, x.fields.map g⟩

/-- Two declarations of a variant that differ in the values they deal with. -/
structure VariantDecl.Like (fs : List F) (o : F → FieldDecl V) (n : F → FieldDecl W)
    (v : VariantDecl V) (w : VariantDecl W) : Prop where
  ident : w.ident = v.ident
  opts : w.opts = v.opts
  left : v.fields = fs.map o
  right : w.fields = fs.map n
  like : ∀ f ∈ fs, (o f).Like (n f)

/-- The functions of the two declarations do the same. -/
structure VariantDecl.SameFuns (g : V → W) (fs : List F) (o : F → FieldDecl V) (n : F → FieldDecl W)
    (v : VariantDecl V) (w : VariantDecl W) : Prop where
  fields : ∀ f ∈ fs, (o f).SameFuns g (n f)
  convert : ∀ this r, w.convert (this.map g) r = EnumVal.map g <$> v.convert this r

variable {fs : List F} {v : VariantDecl V} {w : VariantDecl W}

theorem VariantDecl.Like.existsAt (h : v.Like fs o n w) : w.existsAt = v.existsAt := by
  funext r; unfold VariantDecl.existsAt; rw [h.opts]

theorem decodeLegacyVariant_maps (e : Entry) (tgt : Nat) (h : v.Like fs o n w) (hm : ∀ f ∈ fs, (o f).Maps L g (n f))
    (hs : v.SameFuns g fs o n w) :
    (decodeLegacyVariant e tgt v).Maps L (EnumVal.map g) (decodeLegacyVariant e tgt w) := by
  unfold decodeLegacyVariant
  rw [h.left, h.right, h.existsAt, h.ident]
  exact seq (decodeStructBody_maps fs hm hs.fields (fun f hf => (hm f hf).legacyC.dec)
    (fun f hf => (hm f hf).legacyC.dec)) fun l => branch (ret (EnumVal.mk v.ident l)) (lift (hs.convert l _))

theorem decodeAlive_maps {r : Nat} : ∀ (fs : List F), (∀ f ∈ fs, (o f).Maps L g (n f)) →
    (decodeAlive r (fs.map o)).Maps L (List.map g) (decodeAlive r (fs.map n))
  | [], _ => ret []
  | f :: fs, h => by
    have ih := decodeAlive_maps (r := r) fs fun g hg => h g (List.mem_cons_of_mem _ hg)
    have hf := h f List.mem_cons_self
    simp only [List.map_cons, decodeAlive, hf.existsAt]
    exact branch (seq hf.plain.dec fun a => seq ih fun as => ret (a :: as)) ih

theorem decodeOptimisedVariant_maps (e : Entry) (tgt : Nat) (h : v.Like fs o n w) (hm : ∀ f ∈ fs, (o f).Maps L g (n f))
    (hs : v.SameFuns g fs o n w) :
    (decodeOptimisedVariant e tgt v).Maps L (EnumVal.map g) (decodeOptimisedVariant e tgt w) := by
  unfold decodeOptimisedVariant
  rw [h.left, h.right, h.existsAt, h.ident, h.opts]
  refine same' (readSized_eats _) fun s b r hsb hb => ?_
  have := readSized_length hb
  exact seq (lift ((decodeAlive_maps fs hm).within (by omega))) fun l =>
    branch (ret (EnumVal.mk v.ident l)) (lift (hs.convert l _))

variable {U : Type} {vo : U → VariantDecl V} {vn : U → VariantDecl W} {flds : U → List F}

theorem sig_maps (us : List U) (h : ∀ u ∈ us, (vo u).Like (flds u) o n (vn u)) :
    (us.map vn).map VariantDecl.sig = (us.map vo).map VariantDecl.sig := by
  rw [List.map_map, List.map_map]
  refine List.map_congr_left fun v hv => ?_
  have hv := h v hv
  have hf : (vn v).fields.map (·.opts) = (vo v).fields.map (·.opts) := by
    rw [hv.left, hv.right, List.map_map, List.map_map]
    exact List.map_congr_left fun f hf => (hv.like f hf).opts
  simp only [Function.comp, VariantDecl.sig, hv.ident, hv.opts, hf]

/-- The arms of the two enums side by side. -/
theorem variantArms_maps (us : List U) (h : ∀ u ∈ us, (vo u).Like (flds u) o n (vn u)) (r : Nat) :
    ∃ l : List (Nat × U), (∀ a ∈ l, a.2 ∈ us) ∧ variantArms (us.map vo) r = l.map (fun a => (a.1, vo a.2)) ∧
      variantArms (us.map vn) r = l.map (fun a => (a.1, vn a.2)) := by
  unfold variantArms
  rw [show discsAt (us.map vn) r = discsAt (us.map vo) r by unfold discsAt; rw [sig_maps us h]]
  generalize discsAt (us.map vo) r = D
  have : ∀ ws : List U, (∀ v ∈ ws, v ∈ us) → ∃ l : List (Nat × U), (∀ a ∈ l, a.2 ∈ us) ∧
      ((ws.map vo).filter (·.existsAt r)).filterMap (fun v => (D.lookup v.ident).map (·, v)) =
        l.map (fun a => (a.1, vo a.2)) ∧
      ((ws.map vn).filter (·.existsAt r)).filterMap (fun v => (D.lookup v.ident).map (·, v)) =
        l.map (fun a => (a.1, vn a.2)) := by
    intro ws
    induction ws with
    | nil => exact fun _ => ⟨[], by simp, rfl, rfl⟩
    | cons v ws ih =>
      intro hws
      obtain ⟨l, h1, h2, h3⟩ := ih fun w hw => hws w (List.mem_cons_of_mem _ hw)
      have hv := h v (hws v List.mem_cons_self)
      simp only [List.map_cons, List.filter_cons, hv.existsAt]
      split
      · simp only [List.filterMap_cons, hv.ident]
        cases D.lookup (vo v).ident with
        | none => exact ⟨l, h1, h2, h3⟩
        | some x =>
          refine ⟨(x, v) :: l, ?_, by simp [h2], by simp [h3]⟩
          intro a ha
          rcases List.mem_cons.1 ha with rfl | ha
          · exact hws v List.mem_cons_self
          · exact h1 a ha
      · exact ⟨l, h1, h2, h3⟩
  exact this us fun v hv => hv

theorem find_maps {l : List (Nat × U)} {p : Nat × VariantDecl V → Bool} {q : Nat × VariantDecl W → Bool}
    (h : ∀ a ∈ l, q (a.1, vn a.2) = p (a.1, vo a.2)) :
    ((l.map fun a => (a.1, vo a.2)).find? p = none ∧ (l.map fun a => (a.1, vn a.2)).find? q = none) ∨
    ∃ a ∈ l, (l.map fun a => (a.1, vo a.2)).find? p = some (a.1, vo a.2) ∧
      (l.map fun a => (a.1, vn a.2)).find? q = some (a.1, vn a.2) := by
  induction l with
  | nil => exact .inl ⟨rfl, rfl⟩
  | cons a l ih =>
    simp only [List.map_cons, List.find?_cons, h a List.mem_cons_self]
    cases hP : p (a.1, vo a.2) with
    | true => exact .inr ⟨a, List.mem_cons_self, rfl, rfl⟩
    | false =>
      rcases ih fun b hb => h b (List.mem_cons_of_mem _ hb) with ih | ⟨b, hb, ih⟩
      · exact .inl ih
      · exact .inr ⟨b, List.mem_cons_of_mem _ hb, ih⟩

theorem deserializeEnumBody_maps (cfg : Cfg) (en : Entry) (tgt : Nat) (us : List U)
    (h : ∀ u ∈ us, (vo u).Like (flds u) o n (vn u)) (hm : ∀ u ∈ us, ∀ f ∈ flds u, (o f).Maps L g (n f))
    (hs : ∀ u ∈ us, (vo u).SameFuns g (flds u) o n (vn u)) :
    (deserializeEnumBody cfg en tgt (us.map vo)).Maps L (EnumVal.map g) (deserializeEnumBody cfg en tgt (us.map vn)) := by
  obtain ⟨l, hl, h1, h2⟩ := variantArms_maps us h en.revision
  unfold deserializeEnumBody
  rw [h1, h2]
  refine branch (same readOptimisedTag_eats fun p => ?_) (same (readU32_eats0 cfg) fun x => ?_)
  · obtain ⟨tag, sc⟩ := p
    simp only
    rcases find_maps (l := l) (vo := vo) (vn := vn) (p := fun a =>
        UInt8.ofNat a.1 == tag.variantId && (a.2.opts.size.getD .inline).cls == sc) (q := fun a =>
        UInt8.ofNat a.1 == tag.variantId && (a.2.opts.size.getD .inline).cls == sc)
      (fun a ha => by simp only [(h _ (hl a ha)).opts]) with ⟨e1, e2⟩ | ⟨a, ha, e1, e2⟩
    · rw [e1, e2]; exact fail _
    · rw [e1, e2]; exact decodeOptimisedVariant_maps en tgt (h _ (hl a ha)) (hm _ (hl a ha)) (hs _ (hl a ha))
  · rcases find_maps (l := l) (vo := vo) (vn := vn) (p := fun a => a.1 == x) (q := fun a => a.1 == x)
      (fun a ha => rfl) with ⟨e1, e2⟩ | ⟨a, ha, e1, e2⟩
    · rw [e1, e2]; exact fail _
    · rw [e1, e2]; exact decodeLegacyVariant_maps en tgt (h _ (hl a ha)) (hm _ (hl a ha)) (hs _ (hl a ha))

theorem sizeTable_maps (us : List U) (h : ∀ u ∈ us, (vo u).Like (flds u) o n (vn u)) (r id : Nat) :
    sizeTable (us.map vn) r id = sizeTable (us.map vo) r id := by
  obtain ⟨l, hl, h1, h2⟩ := variantArms_maps us h r
  unfold sizeTable
  rw [h1, h2, List.findRev?_eq_find?_reverse, List.findRev?_eq_find?_reverse, ← List.map_reverse, ← List.map_reverse]
  rcases find_maps (l := l.reverse) (vo := vo) (vn := vn) (p := fun a => a.1 == id) (q := fun a => a.1 == id)
      (fun a ha => rfl) with ⟨e1, e2⟩ | ⟨a, ha, e1, e2⟩
  · rw [e1, e2]
  · rw [e1, e2]
    simp only [(h _ (hl a (List.mem_reverse.1 ha))).opts]

theorem skipEnumBody_maps (cfg : Cfg) {adv : Nat → Rd Unit} (hadv : ∀ k, (adv k).Eats 0) {skip : FieldDecl V → Rd Unit}
    {skip' : FieldDecl W → Rd Unit} (en : Entry) (tgt : Nat) (us : List U)
    (h : ∀ u ∈ us, (vo u).Like (flds u) o n (vn u))
    (hs : ∀ u ∈ us, ∀ f ∈ flds u, (skip (o f)).Maps L (fun u => u) (skip' (n f))) :
    (skipEnumBody cfg adv skip en tgt (us.map vo)).Maps L (fun u => u) (skipEnumBody cfg adv skip' en tgt (us.map vn)) := by
  obtain ⟨l, hl, h1, h2⟩ := variantArms_maps us h en.revision
  unfold skipEnumBody
  rw [h1, h2]
  refine branch (same readOptimisedTag_eats fun p => ?_) (same (readU32_eats0 cfg) fun x => ?_)
  · obtain ⟨tag, sc⟩ := p
    cases sc with
    | inline => exact ret ()
    | fixed =>
      simp only [sizeTable_maps us h]
      exact Rd.Maps.refl (hadv _)
    | varlen => exact same readVarlenLen_eats fun _ => Rd.Maps.refl (hadv _)
  · rcases find_maps (l := l) (vo := vo) (vn := vn) (p := fun a => a.1 == x) (q := fun a => a.1 == x)
      (fun a ha => rfl) with ⟨e1, e2⟩ | ⟨a, ha, e1, e2⟩
    · rw [e1, e2]; exact fail _
    · have hv := h _ (hl a ha)
      rw [e1, e2]
      dsimp only
      rw [hv.left, hv.right]
      exact skipFields_maps _ hv.like (hs _ (hl a ha))

end

/-! ### Programs -/

section
variable {ι : Type} [DecidableEq ι] {E E' : Env ι} {L : Nat} {f : (i : ι) → E.X i → E'.X i}

theorem dynC_maps (t : Ty ι) {c : Codec (t.denote E.X)} {d : Codec (t.denote E'.X)} (h : c.Maps L (t.map f) d) :
    (dynC t c).Maps L (Dyn.map f) (dynC t d) :=
  ⟨seq h.dec fun a => ret (f := Dyn.map f) (⟨t, a⟩ : Dyn E), h.skip, h.skipS, h.check⟩

variable {K : ι → Kind} {cfg : Cfg} {I : Impls K} {n m d : Nat} {hnm : n ≤ m}
  {c : (i : ι) → Codec (Values K n i)} {c' : (i : ι) → Codec (Values K m i)}

theorem Field.decl_maps (h : (I.env n c).Maps L (I.env m c') (Values.lift K n m hnm)) (f : Field K) :
    (f.decl cfg I n c).Maps L (DynAt.lift n m hnm) (f.decl cfg I m c') :=
  have e : DynAt.lift n m hnm = Dyn.map (E := I.env n c) (E' := I.env m c') (Values.lift K n m hnm) := rfl
  e ▸ ⟨⟨rfl, rfl⟩, dynC_maps _ (Ty.codec_maps cfg h _), dynC_maps _ (fixedOf_maps cfg h _),
    dynC_maps _ (bulkOf_maps cfg h _), dynC_maps _ (indexedOf_maps cfg h _)⟩

theorem Field.decl_sameFuns {f : Field K} (hf : f.DepthFree d) (hd : d ≤ n) :
    (f.decl cfg I n c).SameFuns (DynAt.lift n m hnm) (f.decl cfg I m c') where
  dflt r := by
    change (do let a ← f.dflt m r; pure (⟨f.ty, a⟩ : DynAt K m)) =
      DynAt.lift n m hnm <$> (do let a ← f.dflt n r; pure (⟨f.ty, a⟩ : DynAt K n))
    rw [hf.dflt n m hnm r hd]
    cases f.dflt n r <;> rfl
  convert r v this := by
    have e : Dyn.proj (E := I.env m c') f.ty (DynAt.lift n m hnm v) =
        (Dyn.proj (E := I.env n c) f.ty v).map (f.ty.map (Values.lift K n m hnm)) :=
      Dyn.proj_map (E := I.env n c) (E' := I.env m c') (f := Values.lift K n m hnm) f.ty v
    simp only [Field.decl, tyField]
    rw [e]
    cases Dyn.proj (E := I.env n c) f.ty v with
    | none => rfl
    | some a => exact hf.convert n m hnm r a this hd

omit [DecidableEq ι] in
theorem Foreign.skip_eats {X : Type} (x : Foreign X) : x.codec.skip.Eats 0 :=
  fun _ _ _ h => onSlice_length (x.skip_slice ▸ h)

omit [DecidableEq ι] in
theorem Foreign.check_eats {X : Type} (x : Foreign X) : x.codec.check.Eats 0 :=
  fun _ _ _ h => onSlice_length (x.check_slice ▸ h)

theorem Body.codec_maps (h : (I.env n c).Maps L (I.env m c') (Values.lift K n m hnm)) (hd : d ≤ n) (hist : List Entry) :
    {k : Kind} → (body : Body K k) → body.DepthFree d →
    (body.codec cfg I n c hist).Maps (L + 1) (k.map (DynAt.lift n m hnm)) (body.codec cfg I m c' hist)
  | _, .struct fs, hb => by
    have hm : ∀ f ∈ fs, (f.decl cfg I n c).Maps L (DynAt.lift n m hnm) (f.decl cfg I m c') := fun f _ => f.decl_maps h
    have hs : ∀ f ∈ fs, (f.decl cfg I n c).SameFuns (DynAt.lift n m hnm) (f.decl cfg I m c') :=
      fun f hf => Field.decl_sameFuns (hb f hf) hd
    have hdec := dispatch_maps cfg hist fun e => deserializeStructBody_maps e (latest hist) fs hm hs
    have hk : ∀ f ∈ fs, (f.decl cfg I n c).SkipMaps L (f.decl cfg I m c') := fun f hf => (hm f hf).skips
    exact ⟨hdec, dispatch_maps cfg hist fun e => skipStructBody_maps e (latest hist) fs hk,
      dispatch_maps cfg hist fun e => skipSStructBody_maps e (latest hist) fs hk, hdec.discard⟩
  | _, .enum vs, hb => by
    have hl : ∀ v ∈ vs, (v.decl cfg I n c).Like v.fields (·.decl cfg I n c) (·.decl cfg I m c') (v.decl cfg I m c') :=
      fun v _ => ⟨rfl, rfl, rfl, rfl, fun f _ => ⟨rfl, rfl⟩⟩
    have hm : ∀ v ∈ vs, ∀ f ∈ v.fields, (f.decl cfg I n c).Maps L (DynAt.lift n m hnm) (f.decl cfg I m c') :=
      fun _ _ f _ => f.decl_maps h
    have hs : ∀ v ∈ vs, (v.decl cfg I n c).SameFuns (DynAt.lift n m hnm) v.fields (·.decl cfg I n c) (·.decl cfg I m c')
        (v.decl cfg I m c') := fun v hv => ⟨fun f hf => Field.decl_sameFuns ((hb v hv).fields f hf) hd,
          fun this r => (hb v hv).convert n m hnm this r hd⟩
    have hdec := dispatch_maps cfg hist fun e => deserializeEnumBody_maps (flds := Variant.fields) cfg e (latest hist) vs hl hm hs
    exact ⟨hdec, dispatch_maps cfg hist fun e => skipEnumBody_maps (flds := Variant.fields) cfg advance_eats0 e (latest hist) vs hl
        fun v hv f hf => (hm v hv f hf).skips.legacySkip,
      dispatch_maps cfg hist fun e => skipEnumBody_maps (flds := Variant.fields) cfg consume_eats e (latest hist) vs hl
        fun v hv f hf => (hm v hv f hf).skips.legacySkipS, hdec.discard⟩
  | _, .foreign x, _ => ⟨.refl (x.heavy.eats.weaken (by omega)), .refl x.skip_eats, .refl (x.skipS_eq ▸ x.skip_eats),
      .refl x.check_eats⟩

end

theorem Rd.Maps.none (f : α → β) (m : Rd α) (n : Rd β) : m.Maps 0 f n := fun _ h => absurd h (Nat.not_lt_zero _)

theorem Program.codec_maps {ι : Type} [DecidableEq ι] (cfg : Cfg) (P : Program ι) (I : Impls P.kind) (hI : I.DepthFree)
    {d : Nat} (hP : P.DepthFree d) : ∀ (n m : Nat) (h : n ≤ m) (i : ι),
      (P.codec cfg I n i).Maps (n - d) (Values.lift P.kind n m h i) (P.codec cfg I m i)
  | 0, _, _, _ => by rw [Nat.zero_sub]; exact ⟨.none _ _ _, .none _ _ _, .none _ _ _, .none _ _ _⟩
  | _ + 1, 0, h, _ => absurd h (Nat.not_succ_le_zero _)
  | n + 1, m + 1, h, i => by
    by_cases hd : d ≤ n
    · have hnm := Nat.le_of_succ_le_succ h
      rw [Nat.succ_sub hd]
      exact Body.codec_maps (hnm := hnm)
        ⟨Program.codec_maps cfg P I hI hP n m hnm, rfl, hI.cmp n m hnm, hI.eq n m hnm⟩ hd (P.history i) (P.body i) (hP i)
    · rw [show n + 1 - d = 0 by omega]; exact ⟨.none _ _ _, .none _ _ _, .none _ _ _, .none _ _ _⟩

/-! ### Skipping alone -/

section
variable {ι : Type} [DecidableEq ι] {K : ι → Kind} {cfg : Cfg} {I : Impls K} {n m L : Nat}
  {c : (i : ι) → Codec (Values K n i)} {c' : (i : ι) → Codec (Values K m i)}

theorem Field.decl_skipMaps (h : ∀ i, (c i).SkipMaps L (c' i)) (f : Field K) :
    (f.decl cfg I n c).SkipMaps L (f.decl cfg I m c') := by
  have h1 := Ty.codec_skipMaps (E := I.env n c) (E' := I.env m c') cfg rfl h f.ty
  have h2 := fixedOf_skipMaps (E := I.env n c) (E' := I.env m c') cfg rfl h f.ty
  exact ⟨⟨rfl, rfl⟩, ⟨h1.skip, h1.skipS⟩, ⟨h2.skip, h2.skipS⟩⟩

theorem Body.codec_skipMaps (h : ∀ i, (c i).SkipMaps L (c' i)) (hist : List Entry) :
    {k : Kind} → (body : Body K k) → (body.codec cfg I n c hist).SkipMaps (L + 1) (body.codec cfg I m c' hist)
  | _, .struct fs => by
    have hk : ∀ f ∈ fs, (f.decl cfg I n c).SkipMaps L (f.decl cfg I m c') := fun f _ => f.decl_skipMaps h
    exact ⟨dispatch_maps cfg hist fun e => skipStructBody_maps e (latest hist) fs hk,
      dispatch_maps cfg hist fun e => skipSStructBody_maps e (latest hist) fs hk⟩
  | _, .enum vs => by
    have hl : ∀ v ∈ vs, (v.decl cfg I n c).Like v.fields (·.decl cfg I n c) (·.decl cfg I m c') (v.decl cfg I m c') :=
      fun v _ => ⟨rfl, rfl, rfl, rfl, fun f _ => ⟨rfl, rfl⟩⟩
    exact ⟨dispatch_maps cfg hist fun e => skipEnumBody_maps (flds := Variant.fields) cfg advance_eats0 e (latest hist) vs hl
        fun v hv f hf => (f.decl_skipMaps h).legacySkip,
      dispatch_maps cfg hist fun e => skipEnumBody_maps (flds := Variant.fields) cfg consume_eats e (latest hist) vs hl
        fun v hv f hf => (f.decl_skipMaps h).legacySkipS⟩
  | _, .foreign x => ⟨.refl x.skip_eats, .refl (x.skipS_eq ▸ x.skip_eats)⟩

end

theorem Program.codec_skipMaps {ι : Type} [DecidableEq ι] (cfg : Cfg) (P : Program ι) (I : Impls P.kind) :
    ∀ (n m : Nat) (_ : n ≤ m) (i : ι), (P.codec cfg I n i).SkipMaps n (P.codec cfg I m i)
  | 0, _, _, _ => ⟨.none _ _ _, .none _ _ _⟩
  | _ + 1, 0, h, _ => absurd h (Nat.not_succ_le_zero _)
  | n + 1, m + 1, h, i =>
    Body.codec_skipMaps (Program.codec_skipMaps cfg P I n m (Nat.le_of_succ_le_succ h)) (P.history i) (P.body i)

end Revision
