import Verif.Proofs.PathOldEnum
import Verif.Proofs.PathOldView
import Verif.Proofs.PathProgram

/-! Helper lemmas: following paths through the derived types of a program in data of earlier revisions. -/

namespace Revision

variable {ι : Type} [DecidableEq ι]

theorem dynC_findsM {E E' : Env ι} {β : Type} {t : Ty ι} {o : Codec (t.denote E.X)}
    {mig : t.denote E.X → Option (t.denote E'.X)} {m : Rd (Option β)} {inner : Dyn E' → Option β}
    (h : Rd.FindsM o mig m fun v => inner ⟨t, v⟩) {g : Dyn E → Option (Dyn E')}
    (hg : ∀ v, g v = ((Dyn.proj t v).bind mig).map fun b => ⟨t, b⟩) : Rd.FindsM (dynC t o) g m inner := by
  intro v b v' hv hb hm r
  obtain ⟨a, ha, hv⟩ := hv
  rw [hg, ha, Option.bind_some] at hm
  obtain ⟨a', ha', rfl⟩ := Option.map_eq_some_iff.1 hm
  simp only [dynC, Codec.embed, ha] at hb
  exact h a b a' hv hb ha' r

theorem dynC_viewFindsM {E E' : Env ι} {β : Type} {t : Ty ι} {o : Codec (t.denote E.X)}
    {mig : t.denote E.X → Option (t.denote E'.X)} {m : Bytes → Res (Option β)} {inner : Dyn E' → Option β}
    (h : o.ViewFindsM mig m fun v => inner ⟨t, v⟩) {g : Dyn E → Option (Dyn E')}
    (hg : ∀ v, g v = ((Dyn.proj t v).bind mig).map fun b => ⟨t, b⟩) : (dynC t o).ViewFindsM g m inner := by
  intro v b v' hv hb hm
  obtain ⟨a, ha, hv⟩ := hv
  rw [hg, ha, Option.bind_some] at hm
  obtain ⟨a', ha', rfl⟩ := Option.map_eq_some_iff.1 hm
  simp only [dynC, Codec.embed, ha] at hb
  exact h a b a' hv hb ha'

section
variable {K : ι → Kind} {cfg : Cfg} {I I' : Impls K} {n m : Nat} {c : (i : ι) → Codec (Values K n i)}
  {c' : (i : ι) → Codec (Values K m i)} {g : (i : ι) → Values K n i → Option (Values K m i)}

/-- The step of a variant. -/
def Variant.step (cfg : Cfg) (I I' : Impls K) (n m : Nat) (c : (i : ι) → Codec (Values K n i))
    (c' : (i : ι) → Codec (Values K m i)) (g : (i : ι) → Values K n i → Option (Values K m i)) (v : Variant K) :
    VariantStep (DynAt K n) (DynAt K m) :=
  ⟨v.ident, v.opts, v.fields.map fun f => f.step cfg I I' n m c c' g false, v.convert n, v.convert m⟩

theorem Variant.step_old (v : Variant K) : (v.step cfg I I' n m c c' g).old = v.decl cfg I n c := by
  simp only [Variant.step, VariantStep.old, Variant.decl, List.map_map]
  rfl

theorem Variant.step_new (v : Variant K) : (v.step cfg I I' n m c c' g).new = v.decl cfg I' m c' := by
  simp only [Variant.step, VariantStep.new, Variant.decl, List.map_map]
  rfl

theorem Variant.steps_old (vs : List (Variant K)) :
    (vs.map (·.step cfg I I' n m c c' g)).map VariantStep.old = vs.map (·.decl cfg I n c) := by
  rw [List.map_map]
  exact List.map_congr_left fun v _ => v.step_old

theorem Variant.steps_new (vs : List (Variant K)) :
    (vs.map (·.step cfg I I' n m c c' g)).map VariantStep.new = vs.map (·.decl cfg I' m c') := by
  rw [List.map_map]
  exact List.map_congr_left fun v _ => v.step_new

theorem Body.migrate_struct (e : Entry) (tgt : Nat) (fs : List (Field K)) (vs : List (DynAt K n)) :
    (Body.struct fs).migrate cfg I I' n m c c' g e tgt vs =
      structMig e.revision tgt (fs.map (·.step cfg I I' n m c c' g e.optimised)) vs := by
  unfold Body.migrate structMig
  dsimp only
  rw [Field.migration_eq, migrateLive_map (alive' := fun f : Field K => f.existsAt e.revision)
    (mig' := Field.migrateValue cfg I I' n m c c' g e.optimised)
    (fun f => f.step cfg I I' n m c c' g e.optimised) (fun f => rfl) (fun f => rfl), List.map_map]
  rfl

theorem Body.migrate_enum (e : Entry) (tgt : Nat) (vs : List (Variant K)) (x : EnumVal (DynAt K n)) :
    (Body.enum vs).migrate cfg I I' n m c c' g e tgt x =
      enumMig e.revision tgt (vs.map (·.step cfg I I' n m c c' g)) x := by
  unfold Body.migrate enumMig migrateVariantLive
  dsimp only
  rw [Variant.migration_eq, Variant.steps_new, List.filter_map, List.find?_map]
  simp only [Function.comp_def]
  have ef : (vs.filter fun v => (v.step cfg I I' n m c c' g).new.existsAt e.revision) =
      vs.filter fun v => v.existsAt e.revision := rfl
  rw [ef]
  have ei : (fun v : Variant K => (v.step cfg I I' n m c c' g).ident == x.variant) = fun v => v.ident == x.variant := rfl
  rw [ei]
  cases (vs.filter fun v => v.existsAt e.revision).find? (fun v => v.ident == x.variant) with
  | none => rfl
  | some v =>
    simp only [Option.map_some, Option.bind_some, Variant.step]
    rw [migrateLive_map (alive' := fun f : Field K => f.existsAt e.revision)
      (mig' := Field.migrateValue cfg I I' n m c c' g false)
      (fun f => f.step cfg I I' n m c c' g false) (fun f => rfl) (fun f => rfl), Option.bind_map]
    rfl

/-- What is known of the parts of a value. -/
structure Parts {β : Type} (cfg : Cfg) (I I' : Impls K) (n m : Nat) (c : (i : ι) → Codec (Values K n i))
    (c' : (i : ι) → Codec (Values K m i)) (g : (i : ι) → Values K n i → Option (Values K m i))
    (get : Ty ι → Get (DynAt K m) β) (inner : DynAt K m → Option β) (view : Ty ι → Bytes → Res (Option β)) (last : Bool)
    (Op Vw : Ty ι → Prop) : Prop where
  found : ∀ f : Field K, Op f.ty →
    (get f.ty).FindsM (f.decl cfg I n c).plain (f.migrateValue cfg I I' n m c c' g false) inner
  decode : ∀ t out, get t = .decode out → ∀ v, inner v = some (out v)
  ending : last = true → ∀ t, ∃ out, get t = .decode out
  viewed : last = false → ∀ f : Field K, f.isIndexed = true → Vw f.ty →
    (f.decl cfg I n c).indexed.ViewFindsM (f.migrateValue cfg I I' n m c c' g true) (view f.ty) inner

theorem Body.walkStep_old_struct {β : Type} (h : Below false I I' n m c c' g) (hc' : ∀ i, (c' i).Faithful)
    {hist : List Entry} (hh : ValidHistory hist) {k : Nat} (h1 : 1 ≤ k) (h2 : k ≤ hist.length)
    {get : Ty ι → Get (DynAt K m) β} {inner : DynAt K m → Option β}
    {view : Ty ι → Bytes → Res (Option β)} {last : Bool} {Op Vw : Ty ι → Prop} {Rw : Prop} (s : Step)
    (hp : Parts cfg I I' n m c c' g get inner view last Op Vw) (fs : List (Field K))
    (hR : (Body.struct fs).Readable cfg (lastEntry (hist.take k)) hist.length)
    (hrw : Rw → ∀ v v', (((Body.struct fs).asOf k).codec cfg I n c (hist.take k)).valid v →
      (Body.struct fs).migrate cfg I I' n m c c' g (lastEntry (hist.take k)) hist.length v = some v' →
      ((Body.struct fs).codec cfg I' m c' hist).valid v' ∧
        ∃ b, ((Body.struct fs).codec cfg I' m c' hist).enc v' = .ok b)
    (ho : (Body.struct fs).openStepAt (lastEntry (hist.take k)) (lastEntry hist) Rw last Op Vw s) :
    Rd.FindsM (((Body.struct fs).asOf k).codec cfg I n c (hist.take k))
      ((Body.struct fs).migrate cfg I I' n m c c' g (lastEntry (hist.take k)) hist.length)
      ((Body.struct fs).walkStep cfg I' c' hist last get view s) ((Body.struct fs).stepInto inner hist.length s) := by
  have hreads := Body.reads h hist hh k h1 h2 (.struct fs) hR
  have hcur := hh.lastEntry_revision
  have hrev : (lastEntry (hist.take k)).revision = k := by
    have := hh.revision_get (hh.lastEntry_take h1 h2)
    omega
  unfold Body.walkStep Body.stepInto
  cases s with
  | field name =>
    have ho := ho name rfl
    rw [hrev, hcur] at ho
    simp only
    generalize hlive : fs.filter (·.existsAt hist.length) = live
    have hlm : ∀ f ∈ live, f ∈ fs ∧ f.existsAt hist.length = true := fun f hf =>
      List.mem_filter.1 (hlive ▸ hf)
    cases hj : live.findIdx? (·.name == name) with
    | none => exact Rd.FindsM.none _ _
    | some j =>
      obtain ⟨hjl, hjn, _⟩ := List.findIdx?_eq_some_iff_getElem.1 hj
      have hje : live[j]? = some live[j] := List.getElem?_eq_getElem hjl
      simp only [hje, Option.bind_some]
      have hm := hlm _ (List.getElem_mem hjl)
      generalize live[j] = f at *
      have hname : f.name = name := by simpa using hjn
      have hal : aliveFields (fs.map (·.decl cfg I' m c')) hist.length = live.map (·.decl cfg I' m c') := by
        rw [Field.decl_filter, hlive]
      rcases ho with ⟨hcv, hkept, hleg, hix, hfs⟩ | ⟨hne, hcv, hl, hrw', hco, hpl⟩
      · -- walked as it is
        have hop := hfs f hm.1 hm.2 hname
        generalize hss : (fs.map fun f => f.step cfg I I' n m c c' g (lastEntry (hist.take k)).optimised) = ss
        have hsm : ∀ s ∈ ss, ∃ f ∈ fs, s = f.step cfg I I' n m c c' g (lastEntry (hist.take k)).optimised := by
          intro s hs
          rw [← hss] at hs
          obtain ⟨f, hf, rfl⟩ := List.mem_map.1 hs
          exact ⟨f, hf, rfl⟩
        have eold : ss.map (·.old) = fs.map (·.decl cfg I n c) := by
          rw [← hss, List.map_map]
          rfl
        have enew : ss.map (·.new) = fs.map (·.decl cfg I' m c') := by
          rw [← hss, List.map_map]
          rfl
        have elive : (ss.filter fun s => s.new.existsAt hist.length) =
            live.map fun f => f.step cfg I I' n m c c' g (lastEntry (hist.take k)).optimised := by
          rw [← hss, ← hlive, List.filter_map]
          rfl
        have elive' : (ss.filter fun s => s.new.existsAt hist.length).map (·.new) = live.map (·.decl cfg I' m c') := by
          rw [elive, List.map_map]
          rfl
        have emig : (Body.struct fs).migrate cfg I I' n m c c' g (lastEntry (hist.take k)) hist.length =
            structMig k hist.length ss := by
          funext vs
          exact (Body.migrate_struct _ _ fs vs).trans (by rw [hrev, hss])
        have ecod : ((Body.struct fs).asOf k).codec cfg I n c (hist.take k) =
            structC cfg (hist.take k) (fieldsAsOf k (ss.map (·.old))) := by
          rw [eold, ← Field.decl_asOf]
          rfl
        rw [emig, ecod, ← enew, ← elive']
        have hsame : ∀ s ∈ ss, s.SameDecl := by
          intro s hs
          obtain ⟨f, _, rfl⟩ := hsm s hs
          exact ⟨rfl, rfl⟩
        have hnc : NotConverted hist (ss.map (·.new)) k := by
          rcases hcv with hcv | hcv
          · exact .inr hcv
          · left
            rw [enew]
            unfold structHasConvert
            rw [List.any_eq_false]
            intro d hd
            obtain ⟨f, hf, rfl⟩ := List.mem_map.1 hd
            show ¬ f.opts.convert.isSome = true
            rw [hcv f hf]
            simp
        have hk : StepsKept ss k hist.length := by
          intro s hs he
          obtain ⟨f, hf, rfl⟩ := hsm s hs
          exact hkept f hf he
        have hw : ∀ s ∈ ss, s.new.existsAt k = true → s.Walks (lastEntry (hist.take k)) := by
          intro s hs he
          obtain ⟨f, hf, rfl⟩ := hsm s hs
          have e1 : (f.decl cfg I n c).opts = f.opts := rfl
          have e2 : (f.decl cfg I n c).isIndexed = f.isIndexed := rfl
          have e3 : (f.decl cfg I' m c').isIndexed = f.isIndexed := rfl
          cases hopt : (lastEntry (hist.take k)).optimised with
          | false =>
            obtain ⟨l1, l2, l3⟩ := hleg hopt f hf he
            refine ⟨?_, ?_⟩
            · simp only [Field.step, FieldDecl.wire, hopt, FieldDecl.legacyC, FieldDecl.optimisedC, e1, e2, l1, l2, l3,
                Bool.false_eq_true, if_false]
            · simp only [Field.step, FieldDecl.optimisedC, e2, e3, l3, Bool.false_eq_true, if_false]
              exact f.plain_reads h
          | true =>
            refine ⟨?_, ?_⟩
            · simp only [Field.step, FieldDecl.wire, hopt, if_true]
            · by_cases hi : f.isIndexed = true
              · simp only [Field.step, FieldDecl.optimisedC, e2, e3, hi, if_true]
                exact f.indexed_reads h hi
              · have hi : f.isIndexed = false := by simpa using hi
                simp only [Field.step, FieldDecl.optimisedC, e2, e3, hi, Bool.false_eq_true, if_false]
                refine (f.plain_reads h).mono fun v _ => ?_
                rw [Field.migrateValue_legacy f true (by simpa using hi)]
        have hix' : (lastEntry (hist.take k)).optimised = true → (lastEntry (hist.take k)).indexedStruct = true →
            ∀ s ∈ ss, s.new.existsAt hist.length = true → s.new.existsAt k = true := by
          intro o i s hs he
          obtain ⟨f, hf, rfl⟩ := hsm s hs
          exact hix o i f hf he
        have hsi : (ss.filter fun s => s.new.existsAt hist.length)[j]? =
            some (f.step cfg I I' n m c c' g (lastEntry (hist.take k)).optimised) := by
          rw [elive, List.getElem?_map, hje]
          rfl
        have hdec := hp.decode f.ty
        have hiopt : f.existsAt k = true → f.isIndexed = true → (lastEntry (hist.take k)).optimised = true := by
          intro he hi
          cases hopt : (lastEntry (hist.take k)).optimised with
          | true => rfl
          | false =>
            have := (hleg hopt f hm.1 he).2.2
            rw [hi] at this
            cases this
        by_cases hi : f.isIndexed = true
        · cases last with
          | false =>
            simp only [hi, Bool.not_false, Bool.and_self, if_true]
            have he : f.existsAt k = true := by
              cases he : f.existsAt k with
              | true => rfl
              | false =>
                rw [he] at hop
                exact absurd hop Bool.false_ne_true
            rw [if_pos he, if_pos hi, if_neg Bool.false_ne_true] at hop
            refine viewAt_old cfg hh h1 h2 hsame hnc hk hw hix' hsi hi he ?_
            have := hp.viewed rfl f hi hop
            rw [← hiopt he hi] at this
            exact this
          | true =>
            simp only [Bool.not_true, Bool.and_false, Bool.false_eq_true, if_false]
            obtain ⟨out, hout⟩ := hp.ending rfl f.ty
            refine fieldAt_old cfg hh h1 h2 hsame hnc hk hw hix' hsi hdec ?_ (fun _ => ⟨out, hout⟩) ?_
            · intro _
              rw [hout]
              exact hdec out hout
            · intro he _
              have he : f.existsAt k = true := he
              rw [if_pos he, if_pos hi, if_pos rfl] at hop
              exact ⟨⟨out, hout⟩, hop⟩
        · have hi : f.isIndexed = false := by simpa using hi
          simp only [hi, Bool.false_and, Bool.false_eq_true, if_false]
          refine fieldAt_old cfg hh h1 h2 hsame hnc hk hw hix' hsi hdec ?_ ?_ ?_
          · intro he
            have he : f.existsAt k = true := he
            rw [if_pos he, if_neg (by simp [hi])] at hop
            have e2 : (f.decl cfg I n c).isIndexed = f.isIndexed := rfl
            simp only [Field.step, FieldDecl.optimisedC, e2, hi, Bool.false_eq_true, if_false]
            have hg := hp.found f hop
            have : f.migrateValue cfg I I' n m c c' g (lastEntry (hist.take k)).optimised =
                f.migrateValue cfg I I' n m c c' g false := by
              funext v
              rw [Field.migrateValue_legacy f _ (by simp [hi])]
            rw [this]
            exact hg
          · intro he
            have he : f.existsAt k = false := he
            rw [if_neg (by simp [he])] at hop
            exact hp.ending hop f.ty
          · intro _ hi'
            have hi' : f.isIndexed = true := hi'
            rw [hi] at hi'
            cases hi'
      · -- converted first
        subst hl
        simp only [Bool.not_true, Bool.and_false, Bool.false_eq_true, if_false]
        obtain ⟨out, hout⟩ := hp.ending rfl f.ty
        rw [← hal, hout]
        intro vs b ws hv hb hmg t
        obtain ⟨hv', b', hb'⟩ := hrw hrw' vs ws hv hmg
        have hd := hreads.read hv hb hmg t
        have ecod : ((Body.struct fs).asOf k).codec cfg I n c (hist.take k) =
            structC cfg (hist.take k) (fieldsAsOf k (fs.map (·.decl cfg I n c))) := by
          rw [← Field.decl_asOf]
          rfl
        rw [ecod] at hv hb
        obtain ⟨bs, -, -, -, hbe⟩ := structC_wrote cfg hh _ h1 h2 vs b hv hb
        have hfit := hh.fits
        have hu : readU16 cfg (b ++ t) =
            .ok ((lastEntry (hist.take k)).revision, structLayout (lastEntry (hist.take k)) bs ++ t) := by
          rw [hbe, List.append_assoc, readU16_encU16 cfg (by omega), hrev]
        have hconv : structHasConvert (fs.map (·.decl cfg I' m c')) = true := by
          obtain ⟨f, hf, hfc⟩ := hcv
          unfold structHasConvert
          rw [List.any_eq_true]
          refine ⟨_, List.mem_map_of_mem hf, ?_⟩
          show f.opts.convert.isSome = true
          cases hq : f.opts.convert with
          | none => exact absurd hq hfc
          | some _ => rfl
        obtain ⟨r', hr'⟩ := fieldAt_converted cfg hh (List.mem_of_getElem? (hh.lastEntry_take h1 h2))
          (by rw [hrev]; exact hne) hconv hco (by
            intro d hd he
            obtain ⟨f, hf, rfl⟩ := List.mem_map.1 hd
            exact ⟨f.plain_faithful hc', hpl f hf he⟩) hu hd hv' hb' (idx := j) (f := f.decl cfg I' m c') (by
              rw [hal, List.getElem?_map, hje]
              rfl) (out := out)
        refine ⟨r', hr'.trans ?_⟩
        congr 2
        have hl : ∀ l : List (DynAt K m), Option.map out l[j]? = l[j]?.bind inner := by
          intro l
          cases l[j]? with
          | none => rfl
          | some w => exact (hp.decode f.ty out hout w).symm
        exact hl ws
  | _ => exact Rd.FindsM.none _ _

/-- The variant of a value and the number of its fields. -/
theorem Variant.live_of_valid {hist : List Entry} (hh : ValidHistory hist) {vs : List (Variant K)}
    {x : EnumVal (DynAt K n)} (hx : (enumC cfg hist (vs.map (·.decl cfg I n c))).valid x) :
    ∃ u ∈ vs.filter (·.existsAt hist.length), u.ident = x.variant ∧
      x.fields.length = (u.fields.filter (·.existsAt hist.length)).length := by
  have hrev := hh.lastEntry_revision
  unfold enumC at hx
  obtain ⟨d, v, harm, hid, hval, _⟩ := hx
  obtain ⟨hvm, hva, _⟩ := mem_variantArms.1 harm
  have hm : v ∈ aliveVariants (vs.map (·.decl cfg I n c)) hist.length := List.mem_filter.2 ⟨hvm, hrev ▸ hva⟩
  rw [Variant.decl_filter] at hm
  obtain ⟨u, hu, rfl⟩ := List.mem_map.1 hm
  refine ⟨u, hu, hid, ?_⟩
  have hl := ((validFields_iff _ _).1 hval).length_eq
  rw [hrev] at hl
  have := Field.decl_filter (cfg := cfg) (I := I) (c := c) hist.length u.fields
  have hl' : x.fields.length = (aliveFields (u.fields.map (·.decl cfg I n c)) hist.length).length := hl
  rw [hl', this, List.length_map]

/-- Live variants of the same name have the same fields. -/
theorem Variant.same_fields {hist : List Entry} (hh : ValidHistory hist) {vs : List (Variant K)}
    (hA : AcceptedEnum (lastEntry hist) (vs.map (·.decl cfg I n c))) {u v : Variant K}
    (hu : u ∈ vs.filter (·.existsAt hist.length)) (hv : v ∈ vs.filter (·.existsAt hist.length)) (hi : u.ident = v.ident) :
    (u.fields.filter (·.existsAt hist.length)).length = (v.fields.filter (·.existsAt hist.length)).length := by
  have hrev := hh.lastEntry_revision
  have hdl : ∀ u ∈ vs.filter (·.existsAt hist.length),
      u.decl cfg I n c ∈ aliveVariants (vs.map (·.decl cfg I n c)) (lastEntry hist).revision := by
    intro u hu
    rw [hrev, Variant.decl_filter]
    exact List.mem_map.2 ⟨u, hu, rfl⟩
  have hd := List.mem_filter.1 (hdl u hu)
  have hd' := List.mem_filter.1 (hdl v hv)
  have huv := hA.same hd.1 hd.2 hd'.1 hd'.2 hi
  have hff : aliveFields (u.decl cfg I n c).fields hist.length = aliveFields (v.decl cfg I n c).fields hist.length := by
    rw [huv]
  have h1 := Field.decl_filter (cfg := cfg) (I := I) (c := c) hist.length u.fields
  have h2 := Field.decl_filter (cfg := cfg) (I := I) (c := c) hist.length v.fields
  have hff := congrArg List.length ((h1.symm.trans hff).trans h2)
  simpa only [List.length_map] using hff

theorem Body.walkStep_old_enum {β : Type} (h : Below false I I' n m c c' g) (hc' : ∀ i, (c' i).Faithful)
    {hist : List Entry} (hh : ValidHistory hist) {k : Nat} (h1 : 1 ≤ k) (h2 : k ≤ hist.length)
    {get : Ty ι → Get (DynAt K m) β} {inner : DynAt K m → Option β}
    {view : Ty ι → Bytes → Res (Option β)} {last : Bool} {Op Vw : Ty ι → Prop} {Rw : Prop} (s : Step)
    (hp : Parts cfg I I' n m c c' g get inner view last Op Vw) (vs : List (Variant K))
    (hR : (Body.enum vs).Readable cfg (lastEntry (hist.take k)) hist.length)
    (hR' : (Body.enum vs).Readable cfg (lastEntry hist) hist.length)
    (hrw : Rw → ∀ v v', (((Body.enum vs).asOf k).codec cfg I n c (hist.take k)).valid v →
      (Body.enum vs).migrate cfg I I' n m c c' g (lastEntry (hist.take k)) hist.length v = some v' →
      ((Body.enum vs).codec cfg I' m c' hist).valid v' ∧
        ∃ b, ((Body.enum vs).codec cfg I' m c' hist).enc v' = .ok b)
    (ho : (Body.enum vs).openStepAt (lastEntry (hist.take k)) (lastEntry hist) Rw last Op Vw s) :
    Rd.FindsM (((Body.enum vs).asOf k).codec cfg I n c (hist.take k))
      ((Body.enum vs).migrate cfg I I' n m c c' g (lastEntry (hist.take k)) hist.length)
      ((Body.enum vs).walkStep cfg I' c' hist last get view s) ((Body.enum vs).stepInto inner hist.length s) := by
  have hreads := Body.reads h hist hh k h1 h2 (.enum vs) hR
  have hcur := hh.lastEntry_revision
  have hrev : (lastEntry (hist.take k)).revision = k := by
    have := hh.revision_get (hh.lastEntry_take h1 h2)
    omega
  have hA' := Variant.accepted (cfg := cfg) (I := I') (c := c') hR'.1
  generalize hss : (vs.map (·.step cfg I I' n m c c' g)) = ss
  have hsm : ∀ s ∈ ss, ∃ v ∈ vs, s = v.step cfg I I' n m c c' g := by
    intro s hs
    rw [← hss] at hs
    obtain ⟨v, hv, rfl⟩ := List.mem_map.1 hs
    exact ⟨v, hv, rfl⟩
  have eold : ss.map VariantStep.old = vs.map (·.decl cfg I n c) := by
    rw [← hss, Variant.steps_old]
  have enew : ss.map VariantStep.new = vs.map (·.decl cfg I' m c') := by
    rw [← hss, Variant.steps_new]
  have emig : (Body.enum vs).migrate cfg I I' n m c c' g (lastEntry (hist.take k)) hist.length =
      enumMig k hist.length ss := by
    funext x
    exact (Body.migrate_enum _ _ vs x).trans (by rw [hrev, hss])
  have ecod : ((Body.enum vs).asOf k).codec cfg I n c (hist.take k) =
      enumC cfg (hist.take k) (variantsAsOf k (ss.map VariantStep.old)) := by
    rw [eold, ← Variant.decl_asOf]
    rfl
  have hsame : ∀ s ∈ ss, ∀ f ∈ s.fields, f.SameDecl := by
    intro s hs f hf
    obtain ⟨v, _, rfl⟩ := hsm s hs
    obtain ⟨f, _, rfl⟩ := List.mem_map.1 hf
    exact ⟨rfl, rfl⟩
  have hA : AcceptedEnum (lastEntry (hist.take k)) (ss.map VariantStep.new) := by
    rw [enew]
    exact Variant.accepted hR.1
  unfold Body.walkStep Body.stepInto
  cases s with
  | variant ident =>
    have ho := ho ident rfl
    rw [hrev, hcur] at ho
    simp only
    have hlm : ∀ v ∈ vs.filter (·.existsAt hist.length), v ∈ vs ∧ v.existsAt hist.length = true := fun v hv =>
      List.mem_filter.1 hv
    -- what the value is
    have hval : ∀ x b x', (((Body.enum vs).asOf k).codec cfg I n c (hist.take k)).valid x →
        (((Body.enum vs).asOf k).codec cfg I n c (hist.take k)).enc x = .ok b →
        (Body.enum vs).migrate cfg I I' n m c c' g (lastEntry (hist.take k)) hist.length x = some x' →
        ∃ u ∈ vs.filter (·.existsAt hist.length), u.ident = EnumVal.variant x' ∧ (u.ident = ident →
          (EnumVal.fields x').length = (u.fields.filter (·.existsAt hist.length)).length) := by
      intro x b x' hx hb hm
      rcases ho with ⟨hcv, hkept, -, hvs⟩ | ⟨-, -, -, hrw', -, -⟩
      · rw [ecod] at hx hb
        rw [emig] at hm
        obtain ⟨u, hum, -, -, -, hid, hue, -⟩ := enumC_wrote cfg hh h1 h2 hsame hA x b hx hb
        obtain ⟨v, hvm, rfl⟩ := hsm u hum
        have hve : v.existsAt k = true := hue
        obtain ⟨hva, hvf⟩ := hkept v hvm hve
        obtain ⟨hxv, ws, hws, hmf⟩ := enumMig_kept hh h1 h2 hA hum hue hva hid hm
        refine ⟨v, List.mem_filter.2 ⟨hvm, hva⟩, hxv.symm, fun hvi => ?_⟩
        have hfs : ∀ f ∈ (v.step cfg I I' n m c c' g).fields, f.new.existsAt hist.length = f.new.existsAt k := by
          intro f hf
          obtain ⟨f, hf', rfl⟩ := List.mem_map.1 hf
          show f.existsAt hist.length = f.existsAt k
          have a1 := hvf f hf'
          have a2 := fun q => (hvs v hvm hve hvi f hf' q).1
          cases hq : f.existsAt k with
          | true => exact a1 hq
          | false =>
            cases hq' : f.existsAt hist.length with
            | false => rfl
            | true => rw [a2 hq'] at hq; cases hq
        obtain ⟨hw1, hw2⟩ := enumMig_same hfs hws hmf
        rw [hw1, hw2]
        simp only [Variant.step, List.filter_map, List.length_map]
        rfl
      · obtain ⟨hv', -⟩ := hrw hrw' x x' hx hm
        obtain ⟨u, hu, hi, hl⟩ := Variant.live_of_valid hh hv'
        exact ⟨u, hu, hi, fun _ => hl⟩
    cases hj : (vs.filter (·.existsAt hist.length)).find? (·.ident == ident) with
    | none =>
      intro x b x' hx hb hm t
      obtain ⟨u, hu, hi, _⟩ := hval x b x' hx hb hm
      have hne : EnumVal.variant x' ≠ ident := by
        intro h
        have := List.find?_eq_none.1 hj u hu
        simp only [hi, h, beq_self_eq_true, not_true_eq_false] at this
      simp only [hne, if_false]
      exact ⟨b ++ t, rfl⟩
    | some v =>
      have hvl := List.mem_of_find?_eq_some hj
      have hvi : v.ident = ident := by simpa using List.find?_some hj
      obtain ⟨hvm, hva⟩ := hlm v hvl
      simp only
      generalize hfl : v.fields.filter (·.existsAt hist.length) = fl
      have hno : fl.length ≠ 1 → Rd.FindsM (((Body.enum vs).asOf k).codec cfg I n c (hist.take k))
          ((Body.enum vs).migrate cfg I I' n m c c' g (lastEntry (hist.take k)) hist.length)
          (pure none : Rd (Option β)) (fun x => if EnumVal.variant x = ident then
            match EnumVal.fields x with
            | [y] => inner y
            | _ => none
          else none) := by
        intro hne x b x' hx hb hm t
        obtain ⟨u, hu, hi, hlen⟩ := hval x b x' hx hb hm
        refine ⟨b ++ t, ?_⟩
        by_cases hxi : EnumVal.variant x' = ident
        · have hui := hi.trans hxi
          have hff := Variant.same_fields hh hA' hu hvl (hui.trans hvi.symm)
          rw [← hlen hui, hfl] at hff
          simp only [hxi, if_true]
          split
          · rename_i y hy
            rw [hy] at hff
            exact absurd hff.symm hne
          · rfl
        · simp only [hxi, if_false]
          rfl
      match fl, hfl, hno with
      | [], _, hno => exact hno (by simp)
      | _ :: _ :: _, _, hno => exact hno (by simp)
      | [f], hfl, _ =>
        have hfm := List.mem_filter.1 (hfl ▸ List.mem_singleton.2 rfl : f ∈ v.fields.filter (·.existsAt hist.length))
        rcases ho with ⟨hcv, hkept, hst, hvs⟩ | ⟨hne, hcv, hl, hrw', hco, hpl⟩
        · have hnc : EnumNotConverted hist (ss.map VariantStep.new) k := by
            rcases hcv with hcv | hcv
            · exact .inr hcv
            · left
              rw [enew]
              unfold enumHasConvert
              rw [List.any_eq_false]
              intro d hd
              obtain ⟨w, hw, rfl⟩ := List.mem_map.1 hd
              obtain ⟨c1, c2⟩ := hcv w hw
              have e1 : (w.decl cfg I' m c').opts = w.opts := rfl
              rw [e1, c1]
              simp only [Option.isSome_none, Bool.false_or, Bool.not_eq_true]
              unfold structHasConvert
              rw [List.any_eq_false]
              intro d hd
              obtain ⟨f, hf, rfl⟩ := List.mem_map.1 hd
              show ¬ f.opts.convert.isSome = true
              rw [c2 f hf]
              simp
          have hkv : ∀ s ∈ ss, s.new.existsAt k = true → s.new.existsAt hist.length = true := by
            intro s hs he
            obtain ⟨w, hw, rfl⟩ := hsm s hs
            exact (hkept w hw he).1
          have hsd : (lastEntry (hist.take k)).optimised = true → StableDiscs (ss.map VariantStep.new) k hist.length := by
            intro hop
            have hst := hst hop
            have es : (ss.map VariantStep.new).map VariantDecl.sig = vs.map Variant.sig := by
              rw [enew, List.map_map]
              refine List.map_congr_left fun v _ => ?_
              simp only [Function.comp, Variant.decl, VariantDecl.sig, Variant.sig, List.map_map]
              rfl
            intro v1 hv1 v2 hv2 d d' ⟨D, hD, hDl⟩ ⟨D', hD', hDl'⟩
            rw [es] at hD hD'
            obtain ⟨q1, q2⟩ := List.mem_filter.1 hv1
            obtain ⟨q3, q4⟩ := List.mem_filter.1 hv2
            rw [enew] at q1 q3
            obtain ⟨w1, hw1, rfl⟩ := List.mem_map.1 q1
            obtain ⟨w2, hw2, rfl⟩ := List.mem_map.1 q3
            exact hst w1 hw1 q2 w2 hw2 q4 D D' hD hD' d d' hDl hDl'
          have hff : ∀ f ∈ v.fields, v.existsAt k = true → f.existsAt hist.length = f.existsAt k := by
            intro f hf hve
            have a1 := (hkept v hvm hve).2 f hf
            have a2 := fun q => (hvs v hvm hve hvi f hf q).1
            cases hq : f.existsAt k with
            | true => exact a1 hq
            | false =>
              cases hq' : f.existsAt hist.length with
              | false => rfl
              | true => rw [a2 hq'] at hq; cases hq
          have key := variantAt_old cfg hh h1 h2 hsame hA (enew ▸ hA') hnc hkv hsd
            (s := v.step cfg I I' n m c c' g) (by rw [← hss]; exact List.mem_map_of_mem hvm) hva
            (by
              intro hve f hf
              obtain ⟨f, hf', rfl⟩ := List.mem_map.1 hf
              exact hff f hf' hve)
            (f := f.step cfg I I' n m c c' g false)
            (by
              simp only [Variant.step, List.filter_map]
              have : v.fields.filter ((fun s => s.new.existsAt hist.length) ∘ fun f => f.step cfg I I' n m c c' g false) =
                  v.fields.filter (·.existsAt hist.length) := rfl
              rw [this, hfl]
              rfl)
            (by
              intro hve
              obtain ⟨-, -, hleg⟩ := hvs v hvm hve hvi f hfm.1 hfm.2
              show (f.decl cfg I n c).variantWire _ = (f.decl cfg I n c).plain
              unfold FieldDecl.variantWire
              split
              · rfl
              · rename_i hno
                obtain ⟨h1, h2⟩ := hleg (by simpa using hno)
                have e1 : (f.decl cfg I n c).opts = f.opts := rfl
                simp only [FieldDecl.legacyC, e1, h1, h2, Bool.false_eq_true, if_false])
            (fun _ => f.plain_reads h)
            (get := get f.ty) (inner := inner)
            (fun hve => hp.found f (hvs v hvm hve hvi f hfm.1 hfm.2).2.1)
          rw [← ecod, ← emig, enew, Variant.step_new] at key
          rw [← hvi]
          intro x b x' hx hb hm t
          obtain ⟨r, hr⟩ := key x b x' hx hb hm t
          refine ⟨r, hr.trans ?_⟩
          obtain ⟨xv, xs⟩ := x'
          rcases xs with _ | ⟨y, _ | ⟨z, zs⟩⟩ <;> rfl
        · subst hl
          obtain ⟨out, hout⟩ := hp.ending rfl f.ty
          simp only [hout]
          intro x b x' hx hb hm t
          obtain ⟨hv', b', hb'⟩ := hrw hrw' x x' hx hm
          have hd := hreads.read hx hb hm t
          rw [ecod] at hx hb
          obtain ⟨u, -, d, bs, -, -, -, -, -, -, hbe⟩ := enumC_wrote cfg hh h1 h2 hsame hA x b hx hb
          have hfit := hh.fits
          have hu : ∃ q, readU16 cfg (b ++ t) = .ok ((lastEntry (hist.take k)).revision, q) := by
            rw [hbe, List.append_assoc, readU16_encU16 cfg (by omega), hrev]
            exact ⟨_, rfl⟩
          obtain ⟨q, hu⟩ := hu
          have hconv : enumHasConvert (vs.map (·.decl cfg I' m c')) = true := by
            obtain ⟨w, hw, hwc⟩ := hcv
            unfold enumHasConvert
            rw [List.any_eq_true]
            refine ⟨_, List.mem_map_of_mem hw, ?_⟩
            rw [Bool.or_eq_true]
            rcases hwc with hwc | ⟨f, hf, hfc⟩
            · left
              show w.opts.convert.isSome = true
              cases hq : w.opts.convert with
              | none => exact absurd hq hwc
              | some _ => rfl
            · right
              unfold structHasConvert
              rw [List.any_eq_true]
              refine ⟨_, List.mem_map_of_mem hf, ?_⟩
              show f.opts.convert.isSome = true
              cases hq : f.opts.convert with
              | none => exact absurd hq hfc
              | some _ => rfl
          have hal : aliveFields (v.decl cfg I' m c').fields hist.length = [f.decl cfg I' m c'] := by
            have := Field.decl_filter (cfg := cfg) (I := I') (c := c') hist.length v.fields
            rw [hfl] at this
            exact this
          obtain ⟨r', hr'⟩ := variantAt_converted cfg hh (List.mem_of_getElem? (hh.lastEntry_take h1 h2))
            (by rw [hrev]; exact hne) hconv hco hA' (v := v.decl cfg I' m c') (by
              rw [Variant.decl_filter]
              exact List.mem_map_of_mem hvl) hal (f.plain_faithful hc') (hpl v hvm hva hvi f hfm.1 hfm.2) hu hd hv' hb'
            (out := out)
          refine ⟨r', hr'.trans ?_⟩
          rw [← hvi]
          obtain ⟨xv, xs⟩ := x'
          rcases xs with _ | ⟨y, _ | ⟨z, zs⟩⟩
          · rfl
          · simp only [hp.decode f.ty out hout]
            rfl
          · rfl
  | _ => exact Rd.FindsM.none _ _

theorem Body.walkStep_old {β : Type} (h : Below false I I' n m c c' g) (hc' : ∀ i, (c' i).Faithful)
    {hist : List Entry} (hh : ValidHistory hist) {k : Nat} (h1 : 1 ≤ k) (h2 : k ≤ hist.length)
    {get : Ty ι → Get (DynAt K m) β} {inner : DynAt K m → Option β}
    {view : Ty ι → Bytes → Res (Option β)} {last : Bool} {Op Vw : Ty ι → Prop} {Rw : Prop} (s : Step)
    (hp : Parts cfg I I' n m c c' g get inner view last Op Vw) : {kind : Kind} → (body : Body K kind) →
    body.Readable cfg (lastEntry (hist.take k)) hist.length → body.Readable cfg (lastEntry hist) hist.length →
    (Rw → ∀ v v', ((body.asOf k).codec cfg I n c (hist.take k)).valid v →
      body.migrate cfg I I' n m c c' g (lastEntry (hist.take k)) hist.length v = some v' →
      (body.codec cfg I' m c' hist).valid v' ∧ ∃ b, (body.codec cfg I' m c' hist).enc v' = .ok b) →
    body.openStepAt (lastEntry (hist.take k)) (lastEntry hist) Rw last Op Vw s →
    Rd.FindsM ((body.asOf k).codec cfg I n c (hist.take k))
      (body.migrate cfg I I' n m c c' g (lastEntry (hist.take k)) hist.length)
      (body.walkStep cfg I' c' hist last get view s) (body.stepInto inner hist.length s)
  | _, .struct fs, hR, _, hrw, ho => Body.walkStep_old_struct h hc' hh h1 h2 s hp fs hR hrw ho
  | _, .enum vs, hR, hR', hrw, ho => Body.walkStep_old_enum h hc' hh h1 h2 s hp vs hR hR' hrw ho
  | _, .foreign _, _, _, _, _ => Rd.FindsM.none _ _

end

/-- Following a path through data of earlier revisions finds what is there once it has been read. -/
theorem Program.walkPath_old (cfg : Cfg) (P : Program ι) (I I' : Impls P.kind) (r : ι → Nat)
    (htrans : ∀ m t, Std.TransCmp (I'.cmp m t)) (heq : ∀ m t a, I'.eq m t a a = true)
    (hP : P.Readable cfg r) (hcur : P.Readable cfg P.current) (hcap : ∀ t k, I.cap t k = true → I'.cap t k = true) :
    ∀ (p : List Step) (n m : Nat) (_ : n ≤ m) (t : Ty ι), P.OpenAt cfg I I' r p t →
      Rd.FindsM (t.codec cfg (I.env n ((P.asOf r).codec cfg I n))) (P.migrateTy cfg I I' r n m t)
        (P.walkPath cfg I' p m t) (P.focus cfg I' p m t)
  | [], n, m, hnm, t, _ => by
    intro v b v' hv hb hm q
    have hx := P.reads (w := false) cfg I I' r hP hcap n m hnm
    have hf := Ty.codec_reads (w := false) cfg (E := I.env n ((P.asOf r).codec cfg I n))
      (E' := I'.env m (P.codec cfg I' m)) hcap (P.migrate cfg I I' r n m) hx t
    unfold Program.walkPath
    rw [Rd.bind_of_ok (hf.read hv hb hm q)]
    exact ⟨q, rfl⟩
  | s :: p, n, m, hnm, t, ho => by
    have ih := Program.walkPath_old cfg P I I' r htrans heq hP hcur hcap p
    have hreads := P.reads (w := false) cfg I I' r hP hcap
    have hget : ∀ n m, n ≤ m → ∀ t, P.OpenAt cfg I I' r p t →
        Get.FindsM (t.codec cfg (I.env n ((P.asOf r).codec cfg I n))) (P.migrateTy cfg I I' r n m t) (P.focus cfg I' p m t)
        (if p = [] then .decode fun v => ⟨m, t, v⟩ else .walk (P.walkPath cfg I' p m t)) := by
      intro n m hnm t ho
      cases p with
      | nil => exact fun v => rfl
      | cons s p => exact ih n m hnm t ho
    unfold Program.walkPath
    have hfo : ∀ s p n t, P.focus cfg I' (s :: p) n t = t.stepInto (P.encode cfg I' n) (P.focus cfg I' p n)
        (match n with
          | 0 => fun _ x => nomatch x
          | n + 1 => fun i x =>
            Body.stepInto (fun y => P.focus cfg I' p n y.1 y.2) (P.history i).length s (P.body i) x) s := by
      intro s p n t
      funext v
      cases n <;> rfl
    rw [hfo]
    refine Ty.walkStep_old cfg (E := I.env n ((P.asOf r).codec cfg I n)) (E' := I'.env m (P.codec cfg I' m)) (htrans m)
      hcap (g := P.migrate cfg I I' r n m) (hreads n m hnm) s
      (fun t ht a b a' b' => ht n m a b a' b') (fun t ht a b a' b' => ht n m a b a' b') (hget n m hnm) ?_ t ho
    intro i hoi
    match n, m, hnm with
    | 0, _, _ => exact fun x => nomatch x
    | n + 1, 0, hnm => exact absurd hnm (Nat.not_succ_le_zero n)
    | n + 1, m + 1, hnm =>
      have hnm := Nat.le_of_succ_le_succ hnm
      have hb := hcur.body i
      unfold Program.entryAt Program.current at hb
      rw [List.take_length] at hb
      refine Body.walkStep_old (Rw := P.Rewrites cfg I I' r i) ⟨hcap, hreads n m hnm⟩ (P.faithful cfg I' htrans hcur m)
        (hP.history i) (hP.lower i) (hP.upper i) s ⟨?_, ?_, ?_, ?_⟩ (P.body i) (hP.body i) hb
        (fun h v v' hv hm => h (n + 1) (m + 1) v v' hv hm) hoi
      · intro f ho
        have hg := hget n m hnm f.ty ho
        cases p with
        | nil => exact fun v => rfl
        | cons s p =>
          exact dynC_findsM (E := I.env n ((P.asOf r).codec cfg I n)) (E' := I'.env m (P.codec cfg I' m)) (t := f.ty)
            (mig := P.migrateTy cfg I I' r n m f.ty) (m := P.walkPath cfg I' (s :: p) m f.ty)
            (inner := fun y => P.focus cfg I' (s :: p) m y.1 y.2) hg (Field.migrateValue_plain f)
      · intro t out hout v
        cases p with
        | nil =>
          simp only [if_true, Get.decode.injEq] at hout
          rw [← hout]
          rfl
        | cons s p => cases hout
      · intro hl t
        cases p with
        | nil => exact ⟨_, rfl⟩
        | cons s p => cases hl
      · intro hl f hi hov
        cases p with
        | nil => cases hl
        | cons s p =>
          refine dynC_viewFindsM (E := I.env n ((P.asOf r).codec cfg I n)) (E' := I'.env m (P.codec cfg I' m))
            (mig := f.ty.migrateIndexed cfg _ _ (P.migrate cfg I I' r n m)) ?_ ?_
          · have hget' : ∀ t, P.OpenAt cfg I I' r p t →
                Get.FindsM (t.codec cfg (I.env n ((P.asOf r).codec cfg I n))) (P.migrateTy cfg I I' r n m t)
                  (P.focus cfg I' p m t)
                  (if p = [] then .decode fun v => ⟨m, t, v⟩ else .walk (P.walkPath cfg I' p m t)) := by
              intro t ho
              cases p with
              | nil => exact fun v => rfl
              | cons s p => exact Program.walkPath_old cfg P I I' r htrans heq hP hcur hcap (s :: p) n m hnm t ho
            obtain ⟨ei, hei⟩ : ∃ ei : (i : ι) → Values P.kind m i → Option (Found P.kind), P.focus cfg I' (s :: p) m f.ty =
                f.ty.stepInto (P.encode cfg I' m) (P.focus cfg I' p m) ei s := ⟨_, hfo s p m f.ty⟩
            have := Ty.viewStep_old cfg (E := I.env n ((P.asOf r).codec cfg I n)) (E' := I'.env m (P.codec cfg I' m))
              (htrans m) (heq m) hcap (g := P.migrate cfg I I' r n m) (hreads n m hnm) (einner := ei) s
              (fun t ht a b a' b' => ht n m a b a' b') (fun t ht a b a' b' => ht n m a b a' b')
              (fun t ht a a' => ht n m a a') hget' (fun t hw => hw n) f.ty hov
            intro v b v' hv hb hm
            exact (this v b v' hv hb hm).trans (congrArg Res.ok (congrFun hei v').symm)
          · intro v
            unfold Field.migrateValue
            rw [hi]
            cases Dyn.proj (E := I.env n ((P.asOf r).codec cfg I n)) f.ty v <;> rfl

end Revision
