import Verif.Proofs.DeriveIo
import Verif.Spec.DeriveIo

/-! # Errors of derived types on arbitrary readers and writers -/

namespace Revision

section
variable {V : Type} {K : Err → Prop}

/-! ### Running out of input -/

theorem decodeFieldsP_short (cur tgt : Nat) (fs : List (FieldIo V))
    (hfs : ∀ f ∈ fs, f.decl.existsAt cur = true → f.legacy.dec.Short K) (env : Binds V) :
    (decodeFieldsP cur tgt fs env).Short K := by
  induction fs generalizing env with
  | nil => trivial
  | cons f fs ih =>
    have hf := hfs f (by simp)
    have ih := ih fun g hg => hfs g (by simp [hg])
    simp only [decodeFieldsP]
    cases hc : f.decl.existsAt cur with
    | true =>
      exact .ite (.bind (hf hc) fun _ => ih _) <| .ite (.bind (.lift _) fun _ => ih _) <|
        .ite (.bind (hf hc) fun _ => ih _) (ih _)
    | false =>
      simp only [Bool.and_false, Bool.false_eq_true, if_false, Bool.not_false, Bool.and_true]
      exact .ite (.bind (.lift _) fun _ => ih _) (ih _)

theorem decodeStructBodyP_short (cur tgt : Nat) (fs : List (FieldIo V))
    (hfs : ∀ f ∈ fs, f.decl.existsAt cur = true → f.legacy.dec.Short K) :
    (decodeStructBodyP cur tgt fs).Short K :=
  .bind (decodeFieldsP_short cur tgt fs hfs []) fun _ => .bind (.lift _) fun _ => .lift _

theorem structIo_dec_short (hio : K .io) (cfg : Cfg) (h : List Entry) (fs : List (FieldIo V))
    (hfs : ∀ e ∈ h, e.optimised = false → ∀ f ∈ fs, f.decl.existsAt e.revision = true → f.legacy.dec.Short K) :
    (structIo cfg h fs).dec.Short K := by
  refine dispatchRevisionP_short hio cfg h _ fun e he => ?_
  unfold deserializeStructBodyP
  cases ho : e.optimised with
  | true =>
    exact .bind (.readLengthPrefixed hio) fun _ => .ite (.ite trivial (.lift _)) (.lift _)
  | false => exact decodeStructBodyP_short _ _ fs (hfs e he ho)

theorem mem_armsIo_exists {vs : List (VariantIo V)} {r : Nat} {a : Nat × VariantIo V} (h : a ∈ variantArmsIo vs r) :
    a.2.decl.existsAt r = true := by
  unfold variantArmsIo at h
  obtain ⟨v, hv, ha⟩ := List.mem_filterMap.1 h
  cases hl : (discsAt (vs.map (·.decl)) r).lookup v.decl.ident with
  | none => rw [hl] at ha; cases ha
  | some d =>
    rw [hl] at ha
    cases ha
    exact (List.mem_filter.1 hv).2

theorem enumIo_dec_short (hio : K .io) (cfg : Cfg) (h : List Entry) (vs : List (VariantIo V))
    (hvs : ∀ e ∈ h, e.optimised = false → ∀ v ∈ vs, v.decl.existsAt e.revision = true →
      ∀ f ∈ v.fields, f.decl.existsAt e.revision = true → f.legacy.dec.Short K) :
    (enumIo cfg h vs).dec.Short K := by
  refine dispatchRevisionP_short hio cfg h _ fun e he => ?_
  unfold deserializeEnumBodyP
  cases ho : e.optimised with
  | true =>
    refine .bind (.readOptimisedTag hio) fun ⟨tag, sc⟩ => ?_
    simp only
    split
    · exact .bind (.readSized hio _) fun _ => .bind (.lift _) fun _ => .ite (Prog.Short.pure _) (.lift _)
    · trivial
  | false =>
    refine .bind (.readU32 hio cfg) fun d => ?_
    cases hf : (variantArmsIo vs e.revision).find? (fun a => a.1 == d) with
    | none => trivial
    | some a =>
      have ha := List.mem_of_find?_eq_some hf
      exact .bind (decodeStructBodyP_short _ _ _ (hvs e he ho _ (mem_armsIo ha) (mem_armsIo_exists ha)))
        fun _ => .ite (Prog.Short.pure _) (.lift _)

/-! ### `Error::Io` and nothing else -/

theorem Prog.IoSound.readU16 (cfg : Cfg) : (Prog.readU16 cfg).IoSound := .bind (.decInt cfg .u16) fun _ => trivial

theorem dispatchRevisionP_ioSound (cfg : Cfg) (h : List Entry) (arm : Entry → Prog α)
    (ha : ∀ e ∈ h, (arm e).IoSound) : (dispatchRevisionP cfg h arm).IoSound := by
  refine .bind (.readU16 cfg) fun r => ?_
  cases hf : h.find? (fun e => e.revision == r) with
  | none => exact .fail (by simp)
  | some e => exact ha e (List.mem_of_find?_eq_some hf)

theorem useBind_io (env : Binds V) (name : String) : useBind env name ≠ .err .io := by
  unfold useBind; split <;> simp

theorem construct_io (r : Nat) (env : Binds V) (fs : List (FieldDecl V)) : construct r env fs ≠ .err .io := by
  induction fs with
  | nil => simp [construct]
  | cons f fs ih =>
    have h1 := useBind_io env f.name
    simp only [construct]
    split
    · cases hu : useBind env f.name with
      | err e => rw [hu] at h1; simpa using h1
      | panic => simp
      | ok v =>
        cases hc : construct r env fs with
        | err e => rw [hc] at ih; simpa using ih
        | panic => simp
        | ok vs => simp
    · exact ih

theorem runConverts_io (cur tgt : Nat) (env : Binds V) (fs : List (FieldDecl V))
    (hfs : ∀ f ∈ fs, ∀ r v this, f.convert r v this ≠ .err .io) (this : List V) :
    runConverts cur tgt env fs this ≠ .err .io := by
  induction fs generalizing this with
  | nil => simp [runConverts]
  | cons f fs ih =>
    have h1 := useBind_io env f.name
    have ih := ih fun g hg => hfs g (by simp [hg])
    simp only [runConverts]
    split
    · cases hu : useBind env f.name with
      | err e => rw [hu] at h1; simpa using h1
      | panic => simp
      | ok v =>
        have h2 := hfs f (by simp) cur v this
        simp only [Res.ok_bind]
        cases hc : f.convert cur v this with
        | err e => rw [hc] at h2; simpa using h2
        | panic => simp
        | ok this' => exact ih this'
    · exact ih this

/-- What decoding a field at a legacy revision uses reports nothing else as `Error::Io`. -/
structure FieldIo.NoIo (f : FieldIo V) : Prop where
  dec : f.legacy.dec.IoSound
  dflt : ∀ r, f.decl.dflt r ≠ .err .io
  convert : ∀ r v this, f.decl.convert r v this ≠ .err .io

theorem decodeFieldsP_ioSound (cur tgt : Nat) (fs : List (FieldIo V)) (hfs : ∀ f ∈ fs, f.NoIo) (env : Binds V) :
    (decodeFieldsP cur tgt fs env).IoSound := by
  induction fs generalizing env with
  | nil => trivial
  | cons f fs ih =>
    have hf := hfs f (by simp)
    have ih := ih fun g hg => hfs g (by simp [hg])
    simp only [decodeFieldsP]
    exact .ite (.bind hf.dec fun _ => ih _) <| .ite (.bind (.lift (hf.dflt _)) fun _ => ih _) <|
        .ite (.bind hf.dec fun _ => ih _) (ih _)

theorem decodeStructBodyP_ioSound (cur tgt : Nat) (fs : List (FieldIo V)) (hfs : ∀ f ∈ fs, f.NoIo) :
    (decodeStructBodyP cur tgt fs).IoSound :=
  .bind (decodeFieldsP_ioSound cur tgt fs hfs []) fun _ => .bind (.lift (construct_io _ _ _)) fun _ =>
    .lift (runConverts_io _ _ _ _ (by
      intro f hf
      obtain ⟨f, hm, rfl⟩ := List.mem_map.1 hf
      exact (hfs f hm).convert) _)

theorem structIo_dec_ioSound (cfg : Cfg) (h : List Entry) (ho : ∀ e ∈ h, e.optimised = false)
    (fs : List (FieldIo V)) (hfs : ∀ f ∈ fs, f.NoIo) : (structIo cfg h fs).dec.IoSound := by
  refine dispatchRevisionP_ioSound cfg h _ fun e he => ?_
  unfold deserializeStructBodyP
  simp only [ho e he, Bool.false_eq_true, if_false]
  exact decodeStructBodyP_ioSound _ _ fs hfs

theorem enumIo_dec_ioSound (cfg : Cfg) (h : List Entry) (ho : ∀ e ∈ h, e.optimised = false)
    (vs : List (VariantIo V))
    (hvs : ∀ v ∈ vs, (∀ f ∈ v.fields, f.NoIo) ∧ ∀ fields r, v.decl.convert fields r ≠ .err .io) :
    (enumIo cfg h vs).dec.IoSound := by
  refine dispatchRevisionP_ioSound cfg h _ fun e he => ?_
  unfold deserializeEnumBodyP
  simp only [ho e he, Bool.false_eq_true, if_false]
  refine .bind (.readU32 cfg) fun d => ?_
  cases hf : (variantArmsIo vs e.revision).find? (fun a => a.1 == d) with
  | none => exact .fail (by simp)
  | some a =>
    have ha := hvs _ (mem_armsIo (List.mem_of_find?_eq_some hf))
    exact .bind (decodeStructBodyP_ioSound _ _ _ ha.1) fun _ => .ite (Prog.IoSound.pure _) (.lift (ha.2 _ _))

/-! ### Writers -/

theorem writeFields_all (r : Nat) (fs : List (FieldIo V))
    (hfs : ∀ f ∈ fs, f.decl.existsAt r = true → ∀ v, (f.legacy.wr v).AllW) (this : List V) :
    (writeFields r fs this).AllW := by
  induction fs generalizing this with
  | nil => exact .done
  | cons f fs ih =>
    have hf := hfs f (by simp)
    have ih := ih fun g hg => hfs g (by simp [hg])
    simp only [writeFields]
    split
    · cases this with
      | nil => exact .panic
      | cons v vs => exact (hf (by assumption) v).andThen (ih vs)
    · exact ih this

theorem structIo_all (cfg : Cfg) (h : List Entry) (fs : List (FieldIo V))
    (hfs : (lastEntry h).optimised = false → ∀ f ∈ fs, f.decl.existsAt (lastEntry h).revision = true →
      ∀ v, (f.legacy.wr v).AllW) (this : List V) : ((structIo cfg h fs).wr this).AllW := by
  refine (Wr.AllW.all _).andThen ?_
  cases ho : (lastEntry h).optimised with
  | true => exact writeStructBody_all _ ho fs this
  | false =>
    unfold writeStructBody
    simp only [ho, Bool.false_eq_true, if_false]
    exact writeFields_all _ fs (hfs ho) this

theorem enumIo_all (cfg : Cfg) (h : List Entry) (vs : List (VariantIo V))
    (hvs : (lastEntry h).optimised = false → ∀ v ∈ vs, v.decl.existsAt (lastEntry h).revision = true →
      ∀ f ∈ v.fields, f.decl.existsAt (lastEntry h).revision = true → ∀ v, (f.legacy.wr v).AllW) (x : EnumVal V) :
    ((enumIo cfg h vs).wr x).AllW := by
  refine (Wr.AllW.all _).andThen ?_
  cases ho : (lastEntry h).optimised with
  | true => exact writeEnumBody_all cfg _ ho vs x
  | false =>
    unfold writeEnumBody
    cases hf : (variantArmsIo vs (lastEntry h).revision).find? (fun a => a.2.decl.ident == x.variant) with
    | none => exact .panic
    | some a =>
      have ha := List.mem_of_find?_eq_some hf
      simp only [ho, Bool.false_eq_true, if_false]
      exact (Wr.AllW.all _).andThen (writeFields_all _ _ (hvs ho _ (mem_armsIo ha) (mem_armsIo_exists ha)) _)

/-- What has been handed to the writer when an optimised record turns out not to be serialisable. -/
theorem Wr.scratch_failed (x : Res Bytes) (k : Bytes → Wr) (hk : ∀ b, (k b).fin = .ok () ∨ (k b).ops = [])
    (hx : (Wr.scratch x k).fin ≠ .ok ()) : (Wr.scratch x k).ops = [] := by
  cases x with
  | ok b => exact (hk b).resolve_left hx
  | err e => rfl
  | panic => rfl

theorem Wr.lengthPrefixed_failed (b : Bytes) :
    (Wr.lengthPrefixed b).fin = .ok () ∨ (Wr.lengthPrefixed b).ops = [] := by
  unfold Wr.lengthPrefixed
  split
  · exact .inl rfl
  · exact .inr rfl

theorem writeStructBody_failed (e : Entry) (ho : e.optimised = true) (fs : List (FieldIo V)) (this : List V)
    (h : (writeStructBody e fs this).fin ≠ .ok ()) : (writeStructBody e fs this).ops = [] := by
  unfold writeStructBody at h ⊢
  simp only [ho, if_true] at h ⊢
  split at h
  · rename_i hi
    rw [if_pos hi]
    exact Wr.scratch_failed _ _ Wr.lengthPrefixed_failed h
  · rename_i hi
    rw [if_neg hi]
    exact Wr.scratch_failed _ _ Wr.lengthPrefixed_failed h

theorem Wr.all_andThen (b : Bytes) (y : Wr) : (Wr.all b).andThen y = ⟨.all b :: y.ops, y.fin⟩ := rfl

theorem structIo_failed (cfg : Cfg) (h : List Entry) (ho : (lastEntry h).optimised = true) (fs : List (FieldIo V))
    (this : List V) (hf : ((structIo cfg h fs).wr this).fin ≠ .ok ()) :
    ((structIo cfg h fs).wr this).bytesOf = encU16 cfg (latest h) := by
  simp only [structIo, Wr.all_andThen] at hf ⊢
  simp [Wr.bytesOf, WOp.bytes, writeStructBody_failed _ ho fs this hf]

theorem enumIo_failed (cfg : Cfg) (h : List Entry) (ho : (lastEntry h).optimised = true) (vs : List (VariantIo V))
    (x : EnumVal V) (hf : ((enumIo cfg h vs).wr x).fin ≠ .ok ()) :
    ∃ tag, ((enumIo cfg h vs).wr x).bytesOf <+: encU16 cfg (latest h) ++ [tag] := by
  simp only [enumIo, Wr.all_andThen] at hf ⊢
  unfold writeEnumBody at hf ⊢
  split at hf
  · exact ⟨0, [0], by simp [Wr.bytesOf, WOp.bytes, Wr.panic]⟩
  · rename_i id v _
    refine ⟨Tag.new (UInt8.ofNat id) (v.decl.opts.size.getD .inline).cls, [], ?_⟩
    simp only [ho, if_true, Wr.all_andThen] at hf ⊢
    have := Wr.scratch_failed _ _ (fun b => by
      split
      · exact .inl rfl
      · exact .inl rfl
      · exact Wr.lengthPrefixed_failed b) hf
    simp [Wr.bytesOf, WOp.bytes, this]

end

/-! ### Programs -/

section
variable {ι : Type} [DecidableEq ι] {kd : ι → Kind} {K : Err → Prop}

theorem FieldIo.legacy_cases {V : Type} (p : Io V → Prop) (f : FieldIo V) (h1 : p f.fixedLe) (h2 : p f.bulk)
    (h3 : p f.plain) : p f.legacy := by
  unfold FieldIo.legacy
  split
  · exact h1
  · split
    · exact h2
    · exact h3

theorem dynIo_dec_short {E : Env ι} (t : Ty ι) {p : Io (t.denote E.X)} (h : p.dec.Short K) :
    (dynIo t p).dec.Short K := .bind h fun _ => trivial

theorem dynIo_dec_ioSound {E : Env ι} (t : Ty ι) {p : Io (t.denote E.X)} (h : p.dec.IoSound) :
    (dynIo t p).dec.IoSound := .bind h fun _ => trivial

theorem dynIo_all {E : Env ι} (t : Ty ι) {p : Io (t.denote E.X)} (h : ∀ a, (p.wr a).AllW) (v : Dyn E) :
    ((dynIo t p).wr v).AllW := by
  simp only [dynIo]
  cases Dyn.proj t v with
  | none => exact .panic
  | some a => exact h a

theorem fixedIntIo_short (hio : K .io) (cfg : Cfg) (k : IntTy) : (fixedIntIo cfg k).dec.Short K := by
  have h := Prog.Short.decInt hio cfg k
  cases k <;> first | exact h | exact .readLE hio _ _

theorem fixedIntIo_ioSound (cfg : Cfg) (k : IntTy) : (fixedIntIo cfg k).dec.IoSound := by
  have h := Prog.IoSound.decInt cfg k
  cases k <;> first | exact h | exact Prog.IoSound.readLE _ _

theorem Field.io_short (hio : K .io) (cfg : Cfg) (I : Impls kd) (n : Nat) (c : (i : ι) → Codec (Values kd n i))
    (ext : (i : ι) → Io (Values kd n i)) (hext : ∀ i, (ext i).dec.Short K) (f : Field kd)
    (hf : f.ty.plainErrors = true ∨ K .deserialize) :
    (f.io cfg I n c ext).legacy.dec.Short K := by
  have ht : ∀ t : Ty ι, t.plainErrors = true ∨ K .deserialize → (t.io cfg (I.env n c) ext).dec.Short K := fun t h =>
    Ty.decP_short hio cfg (I.env n c) _ hext t h
  refine FieldIo.legacy_cases (·.dec.Short K) _ ?_ ?_ ?_
  · refine dynIo_dec_short (E := I.env n c) _ ?_
    generalize f.ty = t at hf ⊢
    cases t <;> try exact ht _ hf
    exact fixedIntIo_short hio cfg _
  · refine dynIo_dec_short (E := I.env n c) _ ?_
    generalize f.ty = t at hf ⊢
    cases t <;> try exact ht _ hf
    exact vecP_short hio _ _ _ _ (ht _ hf)
  · exact dynIo_dec_short (E := I.env n c) _ (ht _ hf)

theorem Field.io_ioSound (cfg : Cfg) (I : Impls kd) (n : Nat) (c : (i : ι) → Codec (Values kd n i))
    (ext : (i : ι) → Io (Values kd n i)) (hext : ∀ i, (ext i).dec.IoSound) (f : Field kd) (hf : f.NoIo) :
    (f.io cfg I n c ext).NoIo where
  dec := by
    have ht : ∀ t : Ty ι, (t.io cfg (I.env n c) ext).dec.IoSound := fun t =>
      Ty.decP_ioSound cfg (I.env n c) _ hext t
    refine FieldIo.legacy_cases (·.dec.IoSound) _ ?_ ?_ ?_
    · refine dynIo_dec_ioSound (E := I.env n c) _ ?_
      generalize f.ty = t
      cases t <;> try exact ht _
      exact fixedIntIo_ioSound cfg _
    · refine dynIo_dec_ioSound (E := I.env n c) _ ?_
      generalize f.ty = t
      cases t <;> try exact ht _
      exact vecP_ioSound _ _ _ _ (ht _)
    · exact dynIo_dec_ioSound (E := I.env n c) _ (ht _)
  dflt r := by
    have := hf.1 n r
    change (f.dflt n r).bind _ ≠ _
    cases hd : f.dflt n r with
    | ok a => exact nofun
    | panic => exact nofun
    | err e => rw [hd] at this; exact fun h => this (congrArg Res.err (Res.err.inj h))
  convert r v this := by
    simp only [Field.io, Field.decl, tyField]
    split
    · exact hf.2 n r _ this
    · exact nofun

theorem Field.io_all (cfg : Cfg) (I : Impls kd) (n : Nat) (c : (i : ι) → Codec (Values kd n i))
    (ext : (i : ι) → Io (Values kd n i)) (h : ∀ i, (ext i).Models (c i)) (hext : ∀ i x, ((ext i).wr x).AllW)
    (f : Field kd) (hf : f.ty.boolFree cfg = true) (v : DynAt kd n) :
    ((f.io cfg I n c ext).legacy.wr v).AllW := by
  have ht : ∀ t : Ty ι, t.boolFree cfg = true → ∀ a, ((t.io cfg (I.env n c) ext).wr a).AllW := fun t hb a =>
    Ty.writes_all cfg (I.env n c) (writersOf (E := I.env n c) ext h) hext t hb a
  refine FieldIo.legacy_cases (fun p => (p.wr v).AllW) _ ?_ ?_ ?_
  · refine dynIo_all (E := I.env n c) _ ?_ v
    generalize f.ty = t at hf ⊢
    cases t <;> try exact ht _ hf
    rename_i k
    cases k <;> exact fun a => Wr.AllW.all _
  · refine dynIo_all (E := I.env n c) _ ?_ v
    generalize f.ty = t at hf ⊢
    cases t <;> try exact ht _ hf
    rename_i t
    refine fun a => vecW_all _ _ _ _ ?_ a
    by_cases hb : t = .bool
    · exact .inr ⟨⟨hb, trivial⟩, rfl⟩
    · refine .inl (ht t ?_)
      cases t <;> first | exact absurd rfl hb | exact hf
  · exact dynIo_all (E := I.env n c) _ (ht _ hf) v

theorem Body.io_dec_short (hio : K .io) (cfg : Cfg) (I : Impls kd) (n : Nat) (c : (i : ι) → Codec (Values kd n i))
    (ext : (i : ι) → Io (Values kd n i)) (hext : ∀ i, (ext i).dec.Short K) (h : List Entry) :
    {k : Kind} → (b : Body kd k) →
    (∀ e ∈ h, e.optimised = false → ∀ f ∈ b.fieldsAt e.revision, f.ty.plainErrors = true ∨ K .deserialize) →
    (b.io cfg I n c ext h).dec.Short K
  | _, .struct fs, hb => by
    refine structIo_dec_short hio cfg h _ fun e he ho g hg hx => ?_
    obtain ⟨f, hf, rfl⟩ := List.mem_map.1 hg
    exact Field.io_short hio cfg I n c ext hext f (hb e he ho f (List.mem_filter.2 ⟨hf, hx⟩))
  | _, .enum vs, hb => by
    refine enumIo_dec_short hio cfg h _ fun e he ho w hw hwx g hg hx => ?_
    obtain ⟨v, hv, rfl⟩ := List.mem_map.1 hw
    obtain ⟨f, hf, rfl⟩ := List.mem_map.1 hg
    exact Field.io_short hio cfg I n c ext hext f (hb e he ho f
      (List.mem_flatMap.2 ⟨v, List.mem_filter.2 ⟨hv, hwx⟩, List.mem_filter.2 ⟨hf, hx⟩⟩))
  | _, .foreign x, _ => x.dec_short.mono fun _ he => he ▸ hio

theorem Body.io_dec_ioSound (cfg : Cfg) (I : Impls kd) (n : Nat) (c : (i : ι) → Codec (Values kd n i))
    (ext : (i : ι) → Io (Values kd n i)) (hext : ∀ i, (ext i).dec.IoSound) (h : List Entry)
    (ho : ∀ e ∈ h, e.optimised = false) :
    {k : Kind} → (b : Body kd k) → b.NoIo → (b.io cfg I n c ext h).dec.IoSound
  | _, .struct fs, hb => by
    refine structIo_dec_ioSound cfg h ho _ fun g hg => ?_
    obtain ⟨f, hf, rfl⟩ := List.mem_map.1 hg
    exact Field.io_ioSound cfg I n c ext hext f (hb f hf)
  | _, .enum vs, hb => by
    refine enumIo_dec_ioSound cfg h ho _ fun w hw => ?_
    obtain ⟨v, hv, rfl⟩ := List.mem_map.1 hw
    refine ⟨fun g hg => ?_, (hb v hv).2 n⟩
    obtain ⟨f, hf, rfl⟩ := List.mem_map.1 hg
    exact Field.io_ioSound cfg I n c ext hext f ((hb v hv).1 f hf)
  | _, .foreign x, _ => x.dec_sound

theorem Body.io_all (cfg : Cfg) (I : Impls kd) (n : Nat) (c : (i : ι) → Codec (Values kd n i))
    (ext : (i : ι) → Io (Values kd n i)) (hm : ∀ i, (ext i).Models (c i)) (h : List Entry) :
    {k : Kind} → (b : Body kd k) →
    ((lastEntry h).optimised = false → (∀ i x, ((ext i).wr x).AllW) ∧
      ∀ f ∈ b.fieldsAt (lastEntry h).revision, f.ty.boolFree cfg = true) →
    (v : k.values (DynAt kd n)) → ((b.io cfg I n c ext h).wr v).AllW
  | _, .struct fs, hb, v => by
    refine structIo_all cfg h _ (fun ho g hg hx => ?_) v
    obtain ⟨f, hf, rfl⟩ := List.mem_map.1 hg
    exact Field.io_all cfg I n c ext hm (hb ho).1 f ((hb ho).2 f (List.mem_filter.2 ⟨hf, hx⟩))
  | _, .enum vs, hb, v => by
    refine enumIo_all cfg h _ (fun ho w hw hwx g hg hx => ?_) v
    obtain ⟨u, hu, rfl⟩ := List.mem_map.1 hw
    obtain ⟨f, hf, rfl⟩ := List.mem_map.1 hg
    exact Field.io_all cfg I n c ext hm (hb ho).1 f ((hb ho).2 f
      (List.mem_flatMap.2 ⟨u, List.mem_filter.2 ⟨hu, hwx⟩, List.mem_filter.2 ⟨hf, hx⟩⟩))
  | _, .foreign x, _, v => x.write_all v

theorem Body.io_failed (cfg : Cfg) (I : Impls kd) (n : Nat) (c : (i : ι) → Codec (Values kd n i))
    (ext : (i : ι) → Io (Values kd n i)) (h : List Entry) (ho : (lastEntry h).optimised = true) :
    {k : Kind} → k.Derived → (b : Body kd k) → (v : k.values (DynAt kd n)) →
    ((b.io cfg I n c ext h).wr v).fin ≠ .ok () →
    ∃ tag, ((b.io cfg I n c ext h).wr v).bytesOf <+: encU16 cfg (latest h) ++ [tag]
  | _, _, .struct _, v, hf => ⟨0, [0], congrArg (· ++ [0]) (structIo_failed cfg h ho _ v hf)⟩
  | _, _, .enum _, v, hf => enumIo_failed cfg h ho _ v hf

end

section
variable {ι : Type} [DecidableEq ι] (cfg : Cfg) (P : Program ι) (I : Impls P.kind) {K : Err → Prop}

theorem Program.io_dec_short (hio : K .io) (hP : P.PlainErrors ∨ K .deserialize) (n : Nat) (i : ι) :
    (P.io cfg I n i).dec.Short K := by
  induction n generalizing i with
  | zero => trivial
  | succ n ih =>
    exact Body.io_dec_short hio cfg I n _ _ ih _ _ fun e he ho f hf => hP.imp (fun hP => hP i e he ho f hf) id

theorem Program.io_dec_ioSound (hl : P.Legacy) (hb : ∀ i, (P.body i).NoIo) (n : Nat) (i : ι) :
    (P.io cfg I n i).dec.IoSound := by
  induction n generalizing i with
  | zero => exact Prog.IoSound.fail (by simp)
  | succ n ih => exact Body.io_dec_ioSound cfg I n _ _ ih _ (hl i) _ (hb i)

theorem Program.io_all (hP : P.BoolFree cfg) (n : Nat) (i : ι) (v : Values P.kind n i) :
    ((P.io cfg I n i).wr v).AllW := by
  induction n generalizing i with
  | zero => nomatch v
  | succ n ih =>
    exact Body.io_all cfg I n _ _ (P.io_models cfg I n) _ _ (fun ho => ⟨ih, hP i ho⟩) v

/-- A record of a type whose current encoding is optimised is written with `write_all` only. -/
theorem Program.io_all_optimised (n : Nat) (i : ι) (ho : (lastEntry (P.history i)).optimised = true)
    (v : Values P.kind n i) : ((P.io cfg I n i).wr v).AllW := by
  cases n with
  | zero => nomatch v
  | succ n =>
    exact Body.io_all cfg I n _ _ (P.io_models cfg I n) _ _ (fun h => by rw [ho] at h; cases h) v

theorem Program.io_failed (n : Nat) (i : ι) (hd : (P.kind i).Derived) (ho : (lastEntry (P.history i)).optimised = true)
    (v : Values P.kind n i) (hf : ((P.io cfg I n i).wr v).fin ≠ .ok ()) :
    ∃ tag, ((P.io cfg I n i).wr v).bytesOf <+: encU16 cfg (latest (P.history i)) ++ [tag] := by
  cases n with
  | zero => nomatch v
  | succ n => exact Body.io_failed cfg I n _ _ _ ho hd _ v hf

/-- The derived types of a program as readers and as writers. -/
def Program.readers (n : Nat) : (I.env n (P.codec cfg I n)).Readers :=
  readersOf (E := I.env n (P.codec cfg I n)) (P.io cfg I n) (P.io_models cfg I n)

def Program.writers (n : Nat) : (I.env n (P.codec cfg I n)).Writers :=
  writersOf (E := I.env n (P.codec cfg I n)) (P.io cfg I n) (P.io_models cfg I n)

end

end Revision
