import Verif.Proofs.ValueDerive
import Verif.Proofs.Program

/-! Helper lemmas: whatever a program reads is a value of its type. -/

namespace Revision

variable {ι : Type} [DecidableEq ι]

section
variable {K : ι → Kind}

theorem dynC_yields {E : Env ι} (t : Ty ι) {c : Codec (t.denote E.X)} {P : t.denote E.X → Prop} (h : c.dec.Yields P) :
    (dynC t c).dec.Yields (fun d => ∃ a, d = ⟨t, a⟩ ∧ P a) :=
  Rd.Yields.bind h fun a ha => Rd.Yields.pure ⟨a, rfl, ha⟩

theorem Field.decl_sound (cfg : Cfg) (I : Impls K) (hr : I.Roomy) (n : Nat) (htrans : ∀ t, Std.TransCmp (I.cmp n t))
    {c : (i : ι) → Codec (Values K n i)} {G : (i : ι) → Values K n i → Prop} (hc : ∀ i, (c i).dec.Yields (G i))
    (f : Field K) (hd : ∀ q a, f.dflt n q = .ok a → f.IsValue I n G ⟨f.ty, a⟩) :
    FieldSound (f.IsValue I n G) (f.decl cfg I n c) where
  plain := dynC_yields (E := I.env n c) f.ty (Ty.codec_yields (E := I.env n c) (G := G) cfg hr htrans hc f.ty)
  fixedLe := dynC_yields (E := I.env n c) f.ty (fixedOf_yields (E := I.env n c) (G := G) cfg hr htrans hc f.ty)
  bulk := dynC_yields (E := I.env n c) f.ty (bulkOf_yields (E := I.env n c) (G := G) cfg hr htrans hc f.ty)
  indexed := dynC_yields (E := I.env n c) f.ty (indexedOf_yields (E := I.env n c) (G := G) cfg hr htrans hc f.ty)
  dflt := by
    intro q v hv
    simp only [Field.decl, tyField] at hv
    cases hq : f.dflt n q with
    | ok a =>
      rw [hq] at hv
      cases hv
      exact hd q a hq
    | err e => rw [hq] at hv; cases hv
    | panic => rw [hq] at hv; cases hv

theorem Field.decl_convert_typed (cfg : Cfg) (I : Impls K) (n : Nat) {c : (i : ι) → Codec (Values K n i)}
    {G : (i : ι) → Values K n i → Prop} {r : Nat} {fs : List (Field K)} {f : Field K} (hf : f.Typed I n G r fs)
    (q : Nat) (v : DynAt K n) (this this' : List (DynAt K n)) (hv : f.IsValue I n G v)
    (ht : FieldsAre I n G r fs this) (h : (f.decl cfg I n c).convert q v this = .ok this') :
    FieldsAre I n G r fs this' := by
  have hv' := hv
  obtain ⟨a, rfl, _⟩ := hv'
  have hpr := (Dyn.proj_eq_some (E := I.env n c) f.ty ⟨f.ty, a⟩ a).2 rfl
  unfold Field.decl tyField at h
  simp only at h
  split at h
  · rename_i b hb
    have : b = a := Option.some.inj (hb.symm.trans hpr)
    subst this
    exact hf.convert q _ this this' hv ht h
  · cases h

theorem distinctNames_decl (cfg : Cfg) (I : Impls K) (n : Nat) (c : (i : ι) → Codec (Values K n i))
    {fs : List (Field K)} {q r : Nat} (h : DistinctFieldNames fs q r) :
    DistinctNames (fs.map (·.decl cfg I n c)) q r := by
  unfold DistinctFieldNames at h
  unfold DistinctNames
  rw [List.filter_map, List.map_map]
  exact h

theorem Body.sound (cfg : Cfg) (I : Impls K) (hr : I.Roomy) (n : Nat) (htrans : ∀ t, Std.TransCmp (I.cmp n t))
    {c : (i : ι) → Codec (Values K n i)} {G : (i : ι) → Values K n i → Prop} (hc : ∀ i, (c i).dec.Yields (G i))
    (h : List Entry) (hlat : latest h = h.length) :
    {k : Kind} → (b : Body K k) → b.Typed I n G h → (b.codec cfg I n c h).dec.Yields (b.IsValue I n G h.length)
  | _, .struct fs, ⟨hn, hf⟩ => by
    refine dispatch_yields cfg h fun e he => ?_
    have := deserializeStructBody_yields (fun f : Field K => f.decl cfg I n c) (Field.IsValue I n G) e (latest h) fs
      (hlat ▸ distinctNames_decl cfg I n c (hn e he))
      (fun f hm => f.decl_sound cfg I hr n htrans hc (hf f hm).dflt)
      (fun f hm q v this this' hv ht hcv => by
        rw [hlat] at ht ⊢
        exact f.decl_convert_typed cfg I n (hf f hm) q v this this' hv ht hcv)
    rw [hlat] at this ⊢
    exact this
  | _, .enum vs, ⟨hn, hk, hf, hx⟩ => by
    refine dispatch_yields cfg h fun e he => ?_
    rw [hlat]
    have fin : ∀ v ∈ vs, ∀ fields, FieldsAre I n G h.length v.fields fields →
        (if (v.decl cfg I n c).existsAt h.length then (pure ⟨v.ident, fields⟩ : Rd (EnumVal (DynAt K n)))
          else Rd.lift ((v.decl cfg I n c).convert fields e.revision)).Yields
          ((Body.enum vs).IsValue I n G h.length) := by
      intro v hv fields hfs
      refine Rd.Yields.ite (fun ha => Rd.Yields.pure ⟨v, hv, ha, rfl, hfs⟩) fun ha => Rd.Yields.lift fun x hxx => ?_
      exact hx v hv e.revision fields x (Bool.eq_false_iff.2 ha) hfs hxx
    refine deserializeEnumBody_yields cfg e h.length _ (fun ho w hw ha => ?_) fun ho w hw ha => ?_
    · obtain ⟨v, hv, rfl⟩ := List.mem_map.1 hw
      refine Rd.Yields.bind (P := FieldsAre I n G h.length v.fields) ?_ fun fields hfs => fin v hv fields hfs
      exact decodeStructBody_yields (fun f : Field K => f.decl cfg I n c) (Field.IsValue I n G) v.fields
        (distinctNames_decl cfg I n c (hn e he v hv))
        (fun f hm =>
          have hs := f.decl_sound cfg I hr n htrans hc (hf v hv f hm).dflt
          ⟨hs.legacyC, hs.legacyC, hs.dflt⟩)
        (fun f hm q x this this' hv' ht hcv => f.decl_convert_typed cfg I n (hf v hv f hm) q x this this' hv' ht hcv)
    · obtain ⟨v, hv, rfl⟩ := List.mem_map.1 hw
      refine Rd.Yields.bind_any fun body => Rd.Yields.bind (P := FieldsAre I n G h.length v.fields) ?_
        fun fields hfs => fin v hv fields hfs
      have := (decodeAlive_yields (fun f : Field K => f.decl cfg I n c) (Field.IsValue I n G) (r := e.revision) v.fields
        (fun f hm => (f.decl_sound cfg I hr n htrans hc (hf v hv f hm).dflt).plain)).within body
      have heq : v.fields.filter (fun f => (f.decl cfg I n c).existsAt e.revision) =
          v.fields.filter (·.existsAt h.length) :=
        List.filter_congr fun f hm => (hk e he ho v hv ha f hm).symm
      rw [heq] at this
      exact this
  | _, .foreign x, hx => hx

end

theorem Program.sound (cfg : Cfg) (P : Program ι) (I : Impls P.kind) (hr : I.Roomy)
    (htrans : ∀ n t, Std.TransCmp (I.cmp n t)) (hP : P.Typed I) :
    ∀ (n : Nat) (i : ι), (P.codec cfg I n i).dec.Yields (P.IsValue I n i)
  | 0, _ => Rd.Yields.fail _
  | n + 1, i => by
    exact Body.sound cfg I hr n (htrans n) (Program.sound cfg P I hr htrans hP n) (P.history i)
      (hP.history i).latest_eq (P.body i) (hP.body n i)

end Revision
