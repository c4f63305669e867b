import Verif.Proofs.ValueBack
import Verif.Proofs.ProgramFaithful

/-! Helper lemmas: values of a program that are written are valid. -/

namespace Revision

section
variable {V φ : Type} (d : φ → FieldDecl V) {Q : φ → V → Prop} {c : FieldDecl V → Codec V} {r : Nat}

theorem validFields_back : ∀ (fs : List φ) (vs : List V) (out : Bytes),
    serializeFields (fun f v => (c f).enc v) r (fs.map d) vs = .ok out →
    Pointwise Q (fs.filter fun f => (d f).existsAt r) vs →
    (∀ f ∈ fs, ∀ v b, Q f v → (c (d f)).enc v = .ok b → b.length ≤ out.length → (c (d f)).valid v) →
    ValidFields c r (fs.map d) vs
  | [], vs, out, _, hp, _ => by cases hp; rfl
  | f :: fs, vs, out, h, hp, hv => by
    rw [List.map_cons] at h ⊢
    unfold serializeFields at h
    unfold ValidFields
    by_cases ha : (d f).existsAt r = true
    · rw [List.filter_cons_of_pos (by simpa using ha)] at hp
      rw [if_pos ha] at h ⊢
      cases hp with
      | cons hd tl =>
        obtain ⟨b, h1, h⟩ := Res.bind_eq_ok.1 h
        obtain ⟨bs, h2, h⟩ := Res.bind_eq_ok.1 h
        cases h
        refine ⟨hv f List.mem_cons_self _ b hd h1 (by simp), validFields_back fs _ bs h2 tl ?_⟩
        intro g hg v x hq hx hl
        exact hv g (List.mem_cons_of_mem _ hg) v x hq hx (by simp; omega)
    · rw [List.filter_cons_of_neg (by simpa using ha)] at hp
      rw [if_neg ha] at h ⊢
      exact validFields_back fs vs out h hp fun g hg => hv g (List.mem_cons_of_mem _ hg)

theorem validFields_back_indexed : ∀ (fs : List φ) (vs : List V) (pos : Nat) (tbl out : Bytes),
    serializeIndexedFields (fun f v => (c f).enc v) r (fs.map d) vs pos = .ok (tbl, out) →
    Pointwise Q (fs.filter fun f => (d f).existsAt r) vs →
    (∀ f ∈ fs, ∀ v b, Q f v → (c (d f)).enc v = .ok b → b.length ≤ out.length → (c (d f)).valid v) →
    ValidFields c r (fs.map d) vs
  | [], vs, pos, tbl, out, _, hp, _ => by cases hp; rfl
  | f :: fs, vs, pos, tbl, out, h, hp, hv => by
    rw [List.map_cons] at h ⊢
    unfold serializeIndexedFields at h
    unfold ValidFields
    by_cases ha : (d f).existsAt r = true
    · rw [List.filter_cons_of_pos (by simpa using ha)] at hp
      rw [if_pos ha] at h ⊢
      cases hp with
      | cons hd tl =>
        obtain ⟨b, h1, h⟩ := Res.bind_eq_ok.1 h
        obtain ⟨⟨t2, bs⟩, h2, h⟩ := Res.bind_eq_ok.1 h
        cases h
        refine ⟨hv f List.mem_cons_self _ b hd h1 (by simp), validFields_back_indexed fs _ _ t2 bs h2 tl ?_⟩
        intro g hg v x hq hx hl
        exact hv g (List.mem_cons_of_mem _ hg) v x hq hx (by simp; omega)
    · rw [List.filter_cons_of_neg (by simpa using ha)] at hp
      rw [if_neg ha] at h ⊢
      exact validFields_back_indexed fs vs pos tbl out h hp fun g hg => hv g (List.mem_cons_of_mem _ hg)

theorem lengthPrefixed_small {s b : Bytes} (h : lengthPrefixed s = .ok b) : s.length < 2 ^ 32 := by
  unfold lengthPrefixed at h
  split at h
  · assumption
  · cases h

theorem validStruct_back (e : Entry) (fs : List φ) (vs : List V) (out : Bytes)
    (h : serializeStructBody e (fs.map d) vs = .ok out)
    (hp : Pointwise Q (fs.filter fun f => (d f).existsAt e.revision) vs)
    (hv : ∀ f ∈ fs, ∀ v b, Q f v → ((d f).wire e).enc v = .ok b → (e.optimised = true → b.length < 2 ^ 32) →
      ((d f).wire e).valid v) :
    ValidFields (fun f => f.wire e) e.revision (fs.map d) vs := by
  unfold serializeStructBody at h
  simp only at h
  by_cases ho : e.optimised = true
  · rw [if_pos ho] at h
    by_cases hi : e.indexedStruct = true
    · rw [if_pos hi] at h
      obtain ⟨⟨tbl, bs⟩, h1, h2⟩ := Res.bind_eq_ok.1 h
      have := lengthPrefixed_small h2
      simp only [List.length_append] at this
      exact validFields_back_indexed d fs vs _ tbl bs h1 hp fun f hf v b hq hb hl =>
        hv f hf v b hq hb fun _ => by omega
    · rw [if_neg hi] at h
      obtain ⟨bs, h1, h2⟩ := Res.bind_eq_ok.1 h
      have := lengthPrefixed_small h2
      exact validFields_back d fs vs bs h1 hp fun f hf v b hq hb hl => hv f hf v b hq hb fun _ => by omega
  · rw [if_neg ho] at h
    exact validFields_back d fs vs out h hp fun f hf v b hq hb _ => hv f hf v b hq hb fun h => absurd h ho

end

section
variable {ι : Type} [DecidableEq ι] {K : ι → Kind}

theorem dynC_valid_back {E : Env ι} (t : Ty ι) {c : Codec (t.denote E.X)} {P : t.denote E.X → Prop}
    (h : ∀ a b, P a → c.enc a = .ok b → c.valid a) (v : Dyn E) (b : Bytes) (hv : ∃ a, v = ⟨t, a⟩ ∧ P a)
    (hb : (dynC t c).enc v = .ok b) : (dynC t c).valid v := by
  obtain ⟨a, rfl, ha⟩ := hv
  rw [dynC_enc] at hb
  exact ⟨a, (Dyn.proj_eq_some t ⟨t, a⟩ a).2 rfl, h a b ha hb⟩

variable (cfg : Cfg) (I : Impls K) (n : Nat) {c : (i : ι) → Codec (Values K n i)}
  {G : (i : ι) → Values K n i → Prop}

theorem Field.plain_back (hr : I.Roomy) (hx : ∀ i x b, G i x → (c i).enc x = .ok b → (c i).valid x) (f : Field K)
    (v : DynAt K n) (b : Bytes) (hv : f.IsValue I n G v) (hb : (f.decl cfg I n c).plain.enc v = .ok b) :
    (f.decl cfg I n c).plain.valid v :=
  dynC_valid_back (E := I.env n c) f.ty (P := f.ty.Is (I.env n c) G)
    (fun a b ha hb => f.ty.valid_back (E := I.env n c) cfg hr hx a b ha hb) v b hv hb

theorem Field.legacy_back (hr : I.Roomy) (hx : ∀ i x b, G i x → (c i).enc x = .ok b → (c i).valid x) (f : Field K)
    (v : DynAt K n) (b : Bytes) (hv : f.IsValue I n G v) (hb : (f.decl cfg I n c).legacyC.enc v = .ok b) :
    (f.decl cfg I n c).legacyC.valid v := by
  unfold FieldDecl.legacyC at hb ⊢
  split at hb
  · rename_i h
    rw [if_pos h]
    exact dynC_valid_back (E := I.env n c) f.ty (P := f.ty.Is (I.env n c) G)
      (fun a b ha hb => fixedOf_valid_back (E := I.env n c) cfg hr hx f.ty a b ha hb) v b hv hb
  · rename_i h
    rw [if_neg h]
    split at hb
    · rename_i h
      rw [if_pos h]
      exact dynC_valid_back (E := I.env n c) f.ty (P := f.ty.Is (I.env n c) G)
        (fun a b ha hb => bulkOf_valid_back (E := I.env n c) cfg hr hx f.ty a b ha hb) v b hv hb
    · rename_i h
      rw [if_neg h]
      exact f.plain_back cfg I n hr hx v b hv hb

theorem Field.wire_back (hr : I.Roomy) (hx : ∀ i x b, G i x → (c i).enc x = .ok b → (c i).valid x) (f : Field K)
    (e : Entry) (hh : e.optimised = true → f.isIndexed = true → f.ty.isHash = false)
    (v : DynAt K n) (b : Bytes) (hv : f.IsValue I n G v) (hb : ((f.decl cfg I n c).wire e).enc v = .ok b)
    (hs : e.optimised = true → b.length < 2 ^ 32) : ((f.decl cfg I n c).wire e).valid v := by
  unfold FieldDecl.wire FieldDecl.optimisedC at hb ⊢
  split at hb
  · rename_i ho
    rw [if_pos ho]
    split at hb
    · rename_i hi
      rw [if_pos hi]
      obtain ⟨a, rfl, ha⟩ := hv
      have hb' := (dynC_enc (E := I.env n c) f.ty (indexedOf cfg (I.env n c) f.ty) a).symm.trans hb
      exact ⟨a, (Dyn.proj_eq_some (E := I.env n c) f.ty ⟨f.ty, a⟩ a).2 rfl,
        indexedOf_valid_back (E := I.env n c) (G := G) cfg hr hx f.ty (hh ho hi) a b ha hb' (hs ho)⟩
    · rename_i hi
      rw [if_neg hi]
      exact f.plain_back cfg I n hr hx v b hv hb
  · rename_i ho
    rw [if_neg ho]
    exact f.legacy_back cfg I n hr hx v b hv hb

theorem decl_sigs (vs : List (Variant K)) :
    (vs.map (·.decl cfg I n c)).map VariantDecl.sig = vs.map Variant.sig := by
  rw [List.map_map]
  refine List.map_congr_left fun v _ => ?_
  simp only [Function.comp, Variant.decl, VariantDecl.sig, Variant.sig, List.map_map]
  rfl

theorem Body.valid_back (hr : I.Roomy) (hx : ∀ i x b, G i x → (c i).enc x = .ok b → (c i).valid x) (h : List Entry)
    (hh : ValidHistory h) : {k : Kind} → (body : Body K k) → body.Readable cfg (lastEntry h) h.length →
    body.Writable cfg I n c G h → ∀ v b, body.IsValue I n G h.length v → (body.codec cfg I n c h).enc v = .ok b →
    (body.codec cfg I n c h).valid v
  | _, .struct fs, _, hw, v, b, hv, hb => by
    obtain ⟨out, h1, _⟩ := Res.bind_eq_ok.1 hb
    have hrev := hh.lastEntry_revision
    have := validStruct_back (fun f : Field K => f.decl cfg I n c) (Q := Field.IsValue I n G) (lastEntry h) fs v out h1
      (by rw [hrev]; exact hv)
      (fun f hf w x hq hx' hs => f.wire_back cfg I n hr hx (lastEntry h) (fun ho => hw ho f hf) w x hq hx' hs)
    rw [hrev] at this
    show ValidFields _ (latest h) _ _
    rw [hh.latest_eq]
    exact this
  | _, .enum vs, hR, hw, x, b, hv, hb => by
    have hrev := hh.lastEntry_revision
    obtain ⟨hA, _⟩ := hR
    have es := decl_sigs cfg I n (c := c) vs
    have hAE : AcceptedEnum (lastEntry h) (vs.map (·.decl cfg I n c)) :=
      ⟨es ▸ hA.distinct, es ▸ hA.discs, es ▸ hA.optimised⟩
    obtain ⟨v, hvm, hva, hvi, hvf⟩ := hv
    obtain ⟨out, h1, h2⟩ := Res.bind_eq_ok.1 hb
    unfold serializeEnumBody at h1
    split at h1
    · cases h1
    · rename_i id w hfind
      have hmem := List.mem_of_find?_eq_some hfind
      have hid : w.ident = x.variant := by simpa using List.find?_some hfind
      obtain ⟨hwm, hwa, _⟩ := mem_variantArms.1 hmem
      have hsame := hAE.same (v := v.decl cfg I n c) (List.mem_map_of_mem hvm) (by rw [hrev]; exact hva) hwm hwa
        (hvi.trans hid.symm)
      subst hsame
      obtain ⟨body, h3, h4⟩ := Res.bind_eq_ok.1 h1
      have hp : Pointwise (Field.IsValue I n G)
          (v.fields.filter fun f => (f.decl cfg I n c).existsAt (lastEntry h).revision) x.fields := by
        rw [hrev]; exact hvf
      refine ⟨id, v.decl cfg I n c, hmem, hvi, ?_, fun ho => ?_⟩
      · refine validFields_back (fun f : Field K => f.decl cfg I n c) (Q := Field.IsValue I n G) v.fields x.fields body h3
          hp fun f hf a y hq hy _ => ?_
        unfold FieldDecl.variantWire at hy ⊢
        split at hy
        · rename_i ho; rw [if_pos ho]; exact f.plain_back cfg I n hr hx a y hq hy
        · rename_i ho; rw [if_neg ho]; exact f.legacy_back cfg I n hr hx a y hq hy
      · have hsz := hw ho v hvm hva
        have e1 : (v.decl cfg I n c).opts.size = v.opts.size := rfl
        rw [e1]
        cases hs : v.opts.size with
        | none => rw [hs] at hsz; exact hsz.elim
        | some s =>
          rw [hs] at hsz
          cases s with
          | inline =>
            simp only at hsz
            have hl := hp.length
            rw [hrev] at hl
            have : (v.fields.filter fun f => (f.decl cfg I n c).existsAt h.length) = [] := hsz
            rw [this] at hl
            exact List.length_eq_zero_iff.1 hl.symm
          | varlen => trivial
          | fixed k =>
            simp only at hsz
            intro y hy
            have hx' : (⟨v.ident, x.fields⟩ : EnumVal (DynAt K n)) = x := by cases x; cases hvi; rfl
            have hlen := hsz x.fields b hvf (by rw [hx']; exact hb)
            have e2 : (fun (f : FieldDecl (DynAt K n)) w => (f.variantWire (lastEntry h)).enc w) =
                fun f w => f.plain.enc w := by
              funext f w; unfold FieldDecl.variantWire; rw [if_pos ho]
            rw [e2, hy] at h3
            cases h3
            rw [if_pos ho, e1, hs] at h4
            cases h4
            cases h2
            rw [hh.latest_eq, encU16_eq (by have := hh.fits; omega)] at hlen
            simp only [List.length_append, List.length_cons] at hlen
            omega
  | _, .foreign x, _, _, v, b, hv, _ => hv

end

theorem Program.valid_back {ι : Type} [DecidableEq ι] (cfg : Cfg) (P : Program ι) (I : Impls P.kind) (hr : I.Roomy)
    (hP : P.Readable cfg P.current) (hW : P.Writable cfg I) :
    ∀ (n : Nat) (i : ι) (v : Values P.kind n i) (b : Bytes), P.IsValue I n i v →
      (P.codec cfg I n i).enc v = .ok b → (P.codec cfg I n i).valid v
  | 0, _, v, _, _, _ => nomatch v
  | n + 1, i, v, b, hv, hb => by
    have he : P.entryAt P.current i = lastEntry (P.history i) := by
      unfold Program.entryAt Program.current
      rw [List.take_length]
    exact Body.valid_back cfg I n hr (Program.valid_back cfg P I hr hP hW n) (P.history i) (hP.history i) (P.body i)
      (he ▸ hP.body i) (hW n i) v b hv hb

end Revision
