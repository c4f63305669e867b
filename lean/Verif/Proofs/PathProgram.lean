import Verif.Proofs.Path
import Verif.Proofs.PathDerive
import Verif.Proofs.PathView

/-! Helper lemmas: following paths through the derived types of a program. -/

namespace Revision

variable {ι : Type} [DecidableEq ι]

theorem dynC_finds {E : Env ι} {β : Type} {t : Ty ι} {c : Codec (t.denote E.X)} {m : Rd (Option β)}
    {inner : Dyn E → Option β} (h : Rd.Finds c m fun v => inner ⟨t, v⟩) : Rd.Finds (dynC t c) m inner := by
  intro v b hv hb r
  obtain ⟨t', v⟩ := v
  obtain ⟨a, ha, hv⟩ := hv
  unfold Dyn.proj at ha
  split at ha
  · rename_i ht
    simp only at ht
    subst ht
    simp only [Option.some.injEq] at ha
    subst ha
    simp only [dynC, Codec.embed, Dyn.proj, dif_pos] at hb
    exact h _ _ hv hb r
  · cases ha

section
variable {K : ι → Kind} {cfg : Cfg} {I : Impls K} {n : Nat} {c : (i : ι) → Codec (Values K n i)}

theorem Field.decl_filter (r : Nat) (fs : List (Field K)) :
    aliveFields (fs.map (·.decl cfg I n c)) r = (fs.filter (·.existsAt r)).map (·.decl cfg I n c) := by
  unfold aliveFields
  rw [List.filter_map]
  rfl

theorem Variant.decl_filter (r : Nat) (vs : List (Variant K)) :
    aliveVariants (vs.map (·.decl cfg I n c)) r = (vs.filter (·.existsAt r)).map (·.decl cfg I n c) := by
  unfold aliveVariants
  rw [List.filter_map]
  rfl

theorem Variant.accepted {e : Entry} {vs : List (Variant K)} (hA : AcceptedSigs e (vs.map Variant.sig)) :
    AcceptedEnum e (vs.map (·.decl cfg I n c)) := by
  have es : (vs.map (·.decl cfg I n c)).map VariantDecl.sig = vs.map Variant.sig := by
    rw [List.map_map]
    refine List.map_congr_left fun v _ => ?_
    simp only [Function.comp, Variant.decl, VariantDecl.sig, Variant.sig, List.map_map]
    rfl
  exact ⟨es ▸ hA.distinct, es ▸ hA.discs, es ▸ hA.optimised⟩

theorem Body.walkStep_finds {β : Type} (htrans : ∀ t, Std.TransCmp (I.cmp n t)) (hc : ∀ i, (c i).Faithful)
    {hist : List Entry} (hh : ValidHistory hist) {get : Ty ι → Get (DynAt K n) β} {inner : DynAt K n → Option β}
    {view : Ty ι → Bytes → Res (Option β)} {last : Bool} {Op Vw : Ty ι → Prop} (s : Step)
    (hget : ∀ t, Op t → (get t).Finds (dynC (E := I.env n c) t (t.codec cfg (I.env n c))) inner)
    (hlast : last = true → ∀ t, ∃ out, get t = .decode out ∧ ∀ v, inner v = some (out v))
    (hview : last = false → ∀ t, Vw t →
      (dynC (E := I.env n c) t (indexedOf cfg (I.env n c) t)).ViewFinds (view t) inner) :
    {kind : Kind} → (body : Body K kind) → body.Readable cfg (lastEntry hist) hist.length →
    body.openStep (lastEntry hist) last Op Vw s →
    Rd.Finds (body.codec cfg I n c hist) (body.walkStep cfg I c hist last get view s)
      (body.stepInto inner hist.length s)
  | _, .struct fs, hR, ho => by
    have hrev := hh.lastEntry_revision
    unfold Body.walkStep Body.stepInto
    cases s with
    | field name =>
      obtain ⟨hleg, hfs⟩ := ho name rfl
      rw [hrev] at hleg hfs
      simp only
      generalize hlive : fs.filter (·.existsAt hist.length) = live
      have hlm : ∀ f ∈ live, f ∈ fs ∧ f.existsAt hist.length = true := fun f hf =>
        List.mem_filter.1 (hlive ▸ hf)
      cases hj : live.findIdx? (·.name == name) with
      | none => exact Rd.Finds.none _
      | some j =>
        obtain ⟨hjl, hjn, _⟩ := List.findIdx?_eq_some_iff_getElem.1 hj
        have hje : live[j]? = some live[j] := List.getElem?_eq_getElem hjl
        simp only [hje, Option.bind_some]
        have hm := hlm _ (List.getElem_mem hjl)
        generalize live[j] = f at *
        have hname : f.name = name := by simpa using hjn
        have hop := hfs f hm.1 hm.2 hname
        have hal : aliveFields (fs.map (·.decl cfg I n c)) hist.length = live.map (·.decl cfg I n c) := by
          rw [Field.decl_filter, hlive]
        have hdi : (f.decl cfg I n c).isIndexed = f.isIndexed := rfl
        rw [← hal]
        have hws : ∀ g ∈ aliveFields (fs.map (·.decl cfg I n c)) hist.length,
            g.wire (lastEntry hist) = g.optimisedC ∧ g.optimisedC.Faithful := by
          intro g hg
          rw [hal] at hg
          obtain ⟨g, hg', rfl⟩ := List.mem_map.1 hg
          refine ⟨?_, g.optimised_faithful htrans hc⟩
          unfold FieldDecl.wire
          split
          · rfl
          · rename_i hno
            obtain ⟨h1, h2, h3⟩ := hleg (by simpa using hno) g (hlm g hg').1 (hlm g hg').2
            have e1 : (g.decl cfg I n c).opts = g.opts := rfl
            have e2 : (g.decl cfg I n c).isIndexed = g.isIndexed := rfl
            simp only [FieldDecl.legacyC, FieldDecl.optimisedC, e1, e2, h1, h2, h3, Bool.false_eq_true, if_false]
        have hgi : (aliveFields (fs.map (·.decl cfg I n c)) hist.length)[j]? = some (f.decl cfg I n c) := by
          rw [hal, List.getElem?_map, hje]
          rfl
        by_cases hi : f.isIndexed = true
        · rw [if_pos hi] at hop
          cases last with
          | false =>
            simp only [hi, Bool.not_false, Bool.and_self, if_true]
            rw [if_neg Bool.false_ne_true] at hop
            exact viewAt_finds cfg hh hws hgi hi (hview rfl f.ty hop)
          | true =>
            simp only [Bool.not_true, Bool.and_false, Bool.false_eq_true, if_false]
            rw [if_pos rfl] at hop
            obtain ⟨out, ho, hin⟩ := hlast rfl f.ty
            refine fieldAt_finds cfg hh hws (f := f.decl cfg I n c) hgi ?_ ?_
            · rw [ho]
              exact fun v _ => hin v
            · exact fun _ => ⟨⟨out, ho⟩, hop⟩
        · rw [if_neg hi] at hop
          have hi : f.isIndexed = false := by simpa using hi
          simp only [hi, Bool.false_and, Bool.false_eq_true, if_false]
          refine fieldAt_finds cfg hh hws (f := f.decl cfg I n c) hgi ?_ ?_
          · unfold FieldDecl.optimisedC
            rw [hdi, hi]
            exact hget f.ty hop
          · rw [hdi, hi]
            exact fun h => by cases h
    | _ => exact Rd.Finds.none _
  | _, .enum vs, hR, ho => by
    have hrev := hh.lastEntry_revision
    have hA := Variant.accepted (cfg := cfg) (I := I) (c := c) hR.1
    unfold Body.walkStep Body.stepInto
    cases s with
    | variant ident =>
      have ho := ho ident rfl
      rw [hrev] at ho
      simp only
      generalize hlive : vs.filter (·.existsAt hist.length) = live
      have hlm : ∀ v ∈ live, v ∈ vs ∧ v.existsAt hist.length = true := fun v hv =>
        List.mem_filter.1 (hlive ▸ hv)
      have hvar : ∀ x, (enumC cfg hist (vs.map (·.decl cfg I n c))).valid x → ∃ u ∈ live, u.ident = x.variant ∧
          x.fields.length = (u.fields.filter (·.existsAt hist.length)).length := by
        intro x hx
        unfold enumC at hx
        simp only [hh.latest_eq] at hx
        obtain ⟨d, v, harm, hid, hval, _⟩ := hx
        obtain ⟨hvm, hva, _⟩ := mem_variantArms.1 harm
        have hm : v ∈ aliveVariants (vs.map (·.decl cfg I n c)) hist.length := List.mem_filter.2 ⟨hvm, hrev ▸ hva⟩
        rw [Variant.decl_filter, hlive] at hm
        obtain ⟨u, hu, rfl⟩ := List.mem_map.1 hm
        refine ⟨u, hu, hid, ?_⟩
        have hl := ((validFields_iff _ _).1 hval).length_eq
        rw [hrev] at hl
        have := Field.decl_filter (cfg := cfg) (I := I) (c := c) hist.length u.fields
        have hl' : x.fields.length = (aliveFields (u.fields.map (·.decl cfg I n c)) hist.length).length := hl
        rw [hl', this, List.length_map]
      cases hj : live.find? (·.ident == ident) with
      | none =>
        intro x b hx hb t
        obtain ⟨u, hu, hi, _⟩ := hvar x hx
        have hne : x.variant ≠ ident := by
          intro h
          have := List.find?_eq_none.1 hj u hu
          simp only [hi, h, beq_self_eq_true, not_true_eq_false] at this
        simp only [hne, if_false]
        exact ⟨b ++ t, rfl⟩
      | some v =>
        have hvl := List.mem_of_find?_eq_some hj
        have hvi : v.ident = ident := by simpa using List.find?_some hj
        obtain ⟨hvm, hva⟩ := hlm v hvl
        have hdl : ∀ u ∈ live, u.decl cfg I n c ∈ aliveVariants (vs.map (·.decl cfg I n c)) hist.length := by
          intro u hu
          rw [Variant.decl_filter, hlive]
          exact List.mem_map.2 ⟨u, hu, rfl⟩
        simp only
        generalize hfl : v.fields.filter (·.existsAt hist.length) = fl
        have hno : fl.length ≠ 1 → Rd.Finds (enumC cfg hist (vs.map (·.decl cfg I n c)))
            (pure none : Rd (Option β)) (fun x => if x.variant = ident then
              match x.fields with
              | [y] => inner y
              | _ => none
            else none) := by
          intro hne x b hx hb t
          obtain ⟨u, hu, hi, hlen⟩ := hvar x hx
          refine ⟨b ++ t, ?_⟩
          by_cases hxi : x.variant = ident
          · have hd := hdl u hu
            have hd' := hdl v hvl
            rw [← hrev] at hd hd'
            have huv := hA.same (List.mem_filter.1 hd).1 (List.mem_filter.1 hd).2 (List.mem_filter.1 hd').1
              (List.mem_filter.1 hd').2 ((hi.trans hxi).trans hvi.symm)
            have hff : aliveFields (u.decl cfg I n c).fields hist.length
                = aliveFields (v.decl cfg I n c).fields hist.length := by rw [huv]
            have h1 := Field.decl_filter (cfg := cfg) (I := I) (c := c) hist.length u.fields
            have h2 := Field.decl_filter (cfg := cfg) (I := I) (c := c) hist.length v.fields
            have hff := congrArg List.length ((h1.symm.trans hff).trans h2)
            simp only [List.length_map] at hff
            rw [← hlen, hfl] at hff
            simp only [hxi, if_true]
            split
            · rename_i y hy
              rw [hy] at hff
              exact absurd hff.symm hne
            · rfl
          · simp only [hxi, if_false]
            rfl
        match fl, hfl, hno with
        | [], _, hno => exact hno (by simp)
        | _ :: _ :: _, _, hno => exact hno (by simp)
        | [f], hfl, _ =>
          have hfm := List.mem_filter.1 (hfl ▸ List.mem_singleton.2 rfl : f ∈ v.fields.filter (·.existsAt hist.length))
          obtain ⟨hop, hleg⟩ := ho v hvm hva hvi f hfm.1 hfm.2
          have hal : aliveFields (v.decl cfg I n c).fields hist.length = [f.decl cfg I n c] := by
            have := Field.decl_filter (cfg := cfg) (I := I) (c := c) hist.length v.fields
            rw [hfl] at this
            exact this
          rw [← hvi]
          have hw : (f.decl cfg I n c).variantWire (lastEntry hist) = (f.decl cfg I n c).plain := by
            unfold FieldDecl.variantWire
            split
            · rfl
            · rename_i hno
              obtain ⟨h1, h2⟩ := hleg (by simpa using hno)
              have e1 : (f.decl cfg I n c).opts = f.opts := rfl
              simp only [FieldDecl.legacyC, e1, h1, h2, Bool.false_eq_true, if_false]
          have key := variantAt_finds cfg hh hA (hdl v hvl) hal hw (f.plain_faithful hc) (hget f.ty hop)
          intro x b hx hb t
          obtain ⟨r, hr⟩ := key x b hx hb t
          refine ⟨r, hr.trans ?_⟩
          obtain ⟨xv, xs⟩ := x
          rcases xs with _ | ⟨y, _ | ⟨z, zs⟩⟩ <;> rfl
    | _ => exact Rd.Finds.none _
  | _, .foreign x, _, _ => Rd.Finds.none _

end

/-- Following a path finds what is there. -/
theorem Program.walkPath_finds (cfg : Cfg) (P : Program ι) (I : Impls P.kind)
    (htrans : ∀ n t, Std.TransCmp (I.cmp n t)) (heq : ∀ n t a, I.eq n t a a = true)
    (hP : P.Readable cfg P.current) :
    ∀ (p : List Step) (n : Nat) (t : Ty ι), P.Open cfg I p t →
      Rd.Finds (t.codec cfg (I.env n (P.codec cfg I n))) (P.walkPath cfg I p n t) (P.focus cfg I p n t)
  | [], n, t, _ => by
    intro v b hv hb r
    have hf := Ty.codec_faithful_of cfg (E := I.env n (P.codec cfg I n)) (P.faithful cfg I htrans hP n) t
    unfold Program.walkPath
    rw [Rd.bind_of_ok (hf.round_trip v b hv hb r)]
    exact ⟨r, rfl⟩
  | s :: p, n, t, ho => by
    have ih := Program.walkPath_finds cfg P I htrans heq hP p
    have hget : ∀ n t, P.Open cfg I p t → Get.Finds (t.codec cfg (I.env n (P.codec cfg I n))) (P.focus cfg I p n t)
        (if p = [] then .decode fun v => ⟨n, t, v⟩ else .walk (P.walkPath cfg I p n t)) := by
      intro n t ho
      cases p with
      | nil => exact fun v _ => rfl
      | cons s p => exact ih n t ho
    unfold Program.walkPath
    have hfo : ∀ s p n t, P.focus cfg I (s :: p) n t = t.stepInto (P.encode cfg I n) (P.focus cfg I p n)
        (match n with
          | 0 => fun _ x => nomatch x
          | n + 1 => fun i x =>
            Body.stepInto (fun y => P.focus cfg I p n y.1 y.2) (P.history i).length s (P.body i) x) s := by
      intro s p n t
      funext v
      cases n <;> rfl
    rw [hfo]
    refine Ty.walkStep_finds cfg (E := I.env n (P.codec cfg I n)) (P.faithful cfg I htrans hP n) s (hget n) ?_ t ho
    intro i hoi
    cases n with
    | zero => exact fun x => nomatch x
    | succ n =>
      have hb := hP.body i
      unfold Program.entryAt Program.current at hb
      rw [List.take_length] at hb
      refine Body.walkStep_finds (htrans n) (P.faithful cfg I htrans hP n) (hP.history i) s ?_ ?_ ?_ (P.body i) hb hoi
      · intro t ho
        have hg := hget n t ho
        cases p with
        | nil => exact fun v _ => rfl
        | cons s p => exact dynC_finds (E := I.env n (P.codec cfg I n)) hg
      · intro hl t
        cases p with
        | nil => exact ⟨_, rfl, fun v => rfl⟩
        | cons s p => cases hl
      · intro hl t hov
        cases p with
        | nil => cases hl
        | cons s p =>
          refine dynC_viewFinds (E := I.env n (P.codec cfg I n)) ?_
          have hget' : ∀ n t, P.Open cfg I p t →
              Get.Finds (t.codec cfg (I.env n (P.codec cfg I n))) (P.focus cfg I p n t)
                (if p = [] then .decode fun v => ⟨n, t, v⟩ else .walk (P.walkPath cfg I p n t)) := by
            intro n t ho
            cases p with
            | nil => exact fun v _ => rfl
            | cons s p => exact Program.walkPath_finds cfg P I htrans heq hP (s :: p) n t ho
          obtain ⟨ei, hei⟩ : ∃ ei : (i : ι) → Values P.kind n i → Option (Found P.kind), P.focus cfg I (s :: p) n t =
              t.stepInto (P.encode cfg I n) (P.focus cfg I p n) ei s := ⟨_, hfo s p n t⟩
          have := Ty.viewStep_finds cfg (E := I.env n (P.codec cfg I n)) (P.faithful cfg I htrans hP n) (htrans n)
            (heq n) (einner := ei) s (hget' n) (fun t hw => hw n) t hov
          intro v b hv hb
          exact (this v b hv hb).trans (congrArg Res.ok (congrFun hei v).symm)

end Revision
