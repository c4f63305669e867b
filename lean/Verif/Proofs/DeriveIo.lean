import Verif.Model.DeriveIo
import Verif.Proofs.StreamErr
import Verif.Proofs.Sink

/-! # Lemmas about derived types on arbitrary readers and writers -/

namespace Revision

/-- The impls on arbitrary readers and writers are those on slices and `Vec<u8>`. -/
structure Io.Models {α : Type} (p : Io α) (c : Codec α) : Prop where
  dec : p.dec.onSlice = c.dec
  skip : p.skip.onSlice = c.skip
  check : p.check.onSlice = c.check
  enc : ∀ v, (p.wr v).toRes = c.enc v
  skip_short : p.skip.Short (· = .io)
  small : ∀ v, (p.wr v).SmallW

theorem Foreign.models {X : Type} (x : Foreign X) : x.io.Models x.codec :=
  ⟨x.dec_slice, x.skip_slice, x.check_slice, x.to_vec, x.skip_short, fun v o ho => .inl (x.write_all v o ho)⟩

structure FieldIo.Models {V : Type} (f : FieldIo V) : Prop where
  plain : f.plain.Models f.decl.plain
  fixedLe : f.fixedLe.Models f.decl.fixedLe
  bulk : f.bulk.Models f.decl.bulk

variable {V : Type}

theorem FieldIo.Models.legacy {f : FieldIo V} (h : f.Models) : f.legacy.Models f.decl.legacyC := by
  unfold FieldIo.legacy FieldDecl.legacyC
  split
  · exact h.fixedLe
  · split
    · exact h.bulk
    · exact h.plain

theorem FieldIo.Models.legacySkip {f : FieldIo V} (h : f.Models) : f.legacySkip.onSlice = f.decl.legacySkip := by
  unfold FieldIo.legacySkip FieldDecl.legacySkip
  split
  · exact h.fixedLe.skip
  · exact h.plain.skip

theorem FieldIo.Models.legacySkip_short {f : FieldIo V} (h : f.Models) : f.legacySkip.Short (· = .io) := by
  unfold FieldIo.legacySkip
  split
  · exact h.fixedLe.skip_short
  · exact h.plain.skip_short

/-! ### Reading -/

theorem decodeFieldsP_slice (e : Entry) (he : e.optimised = false) (cur tgt : Nat) (fs : List (FieldIo V))
    (hfs : ∀ f ∈ fs, f.Models) (env : Binds V) :
    (decodeFieldsP cur tgt fs env).onSlice =
      decodeFields (fun f => (f.wire e).dec) (fun f => f.removedDec e) cur tgt (fs.map (·.decl)) env := by
  induction fs generalizing env with
  | nil => rfl
  | cons f fs ih =>
    have hf := (hfs f (by simp)).legacy.dec
    have ih := ih fun g hg => hfs g (by simp [hg])
    simp only [decodeFieldsP, List.map_cons, decodeFields, Prog.onSlice_ite, Prog.onSlice_bind, ih, hf,
      Prog.onSlice_lift, FieldDecl.wire, FieldDecl.removedDec, he, Bool.false_eq_true, if_false]

theorem decodeStructBodyP_slice (e : Entry) (he : e.optimised = false) (cur tgt : Nat) (fs : List (FieldIo V))
    (hfs : ∀ f ∈ fs, f.Models) :
    (decodeStructBodyP cur tgt fs).onSlice =
      decodeStructBody (fun f => (f.wire e).dec) (fun f => f.removedDec e) cur tgt (fs.map (·.decl)) := by
  simp only [decodeStructBodyP, decodeStructBody, Prog.onSlice_bind, Prog.onSlice_lift,
    decodeFieldsP_slice e he cur tgt fs hfs]

@[simp] theorem Prog.onSlice_readVarlenLen : Prog.readVarlenLen.onSlice = Revision.readVarlenLen := by
  simp [Prog.readVarlenLen, Revision.readVarlenLen]

@[simp] theorem Prog.onSlice_readLengthPrefixed : Prog.readLengthPrefixed.onSlice = Revision.readLengthPrefixed := by
  simp [Prog.readLengthPrefixed, Revision.readLengthPrefixed]

@[simp] theorem Prog.onSlice_readOptimisedTag : Prog.readOptimisedTag.onSlice = Revision.readOptimisedTag := by
  simp [Prog.readOptimisedTag, Revision.readOptimisedTag]

@[simp] theorem Prog.onSlice_readU16 (cfg : Cfg) : (Prog.readU16 cfg).onSlice = Revision.readU16 cfg := by
  have h := Prog.onSlice_decInt cfg .u16
  unfold Prog.readU16 Revision.readU16
  rw [Prog.onSlice_bind, h]
  rfl

theorem deserializeStructBodyP_slice (e : Entry) (tgt : Nat) (fs : List (FieldIo V))
    (hfs : ∀ f ∈ fs, f.Models) :
    (deserializeStructBodyP e tgt fs).onSlice = deserializeStructBody e tgt (fs.map (·.decl)) := by
  unfold deserializeStructBodyP deserializeStructBody
  cases ho : e.optimised with
  | true => simp [Prog.onSlice_ite]
  | false => simpa using decodeStructBodyP_slice e ho e.revision tgt fs hfs

theorem skipFieldsP_slice (cur tgt : Nat) (fs : List (FieldIo V)) (hfs : ∀ f ∈ fs, f.Models) :
    (skipFieldsP cur tgt fs).onSlice = skipFields FieldDecl.legacySkip cur tgt (fs.map (·.decl)) := by
  induction fs with
  | nil => rfl
  | cons f fs ih =>
    have hf := (hfs f (by simp)).legacySkip
    have ih := ih fun g hg => hfs g (by simp [hg])
    simp only [skipFieldsP, List.map_cons, skipFields, Prog.onSlice_ite, Prog.onSlice_bind, ih, hf]

theorem skipStructBodyP_slice (e : Entry) (tgt : Nat) (fs : List (FieldIo V)) (hfs : ∀ f ∈ fs, f.Models) :
    (skipStructBodyP e tgt fs).onSlice = skipStructBody e tgt (fs.map (·.decl)) := by
  unfold skipStructBodyP skipStructBody
  simp only [Prog.onSlice_ite, Prog.onSlice_bind, Prog.onSlice_readVarlenLen, Prog.onSlice_advance,
    skipFieldsP_slice _ _ fs hfs]

theorem dispatchRevisionP_slice (cfg : Cfg) (h : List Entry) (arm : Entry → Prog α) (arm' : Entry → Rd α)
    (ha : ∀ e, (arm e).onSlice = arm' e) :
    (dispatchRevisionP cfg h arm).onSlice = dispatchRevision cfg h arm' := by
  unfold dispatchRevisionP dispatchRevision
  simp only [Prog.onSlice_bind, Prog.onSlice_readU16]
  congr 1
  funext r
  cases h.find? (fun e => e.revision == r) with
  | none => rfl
  | some e => exact ha e

theorem Prog.Short.readU16 {K : Err → Prop} (hio : K .io) (cfg : Cfg) : (Prog.readU16 cfg).Short K :=
  .bind (.decInt hio cfg .u16) fun _ => trivial

theorem Prog.Short.readVarlenLen {K : Err → Prop} (hio : K .io) : Prog.readVarlenLen.Short K :=
  .bind (.readExact hio 4) fun _ => trivial

theorem Prog.Short.readLengthPrefixed {K : Err → Prop} (hio : K .io) : Prog.readLengthPrefixed.Short K :=
  .bind (.readVarlenLen hio) fun n => .readExact hio n

theorem Prog.Short.readOptimisedTag {K : Err → Prop} (hio : K .io) : Prog.readOptimisedTag.Short K :=
  .bind (.readByte hio) fun _ => .bind (.lift _) fun _ => trivial

theorem Prog.Short.readSized {K : Err → Prop} (hio : K .io) (size : VariantSize) : (Prog.readSized size).Short K := by
  cases size with
  | inline => trivial
  | fixed n => exact .readExact hio n
  | varlen => exact .readLengthPrefixed hio

theorem dispatchRevisionP_short {K : Err → Prop} (hio : K .io) (cfg : Cfg) (h : List Entry) (arm : Entry → Prog α)
    (ha : ∀ e ∈ h, (arm e).Short K) : (dispatchRevisionP cfg h arm).Short K := by
  refine .bind (.readU16 hio cfg) fun r => ?_
  cases hf : h.find? (fun e => e.revision == r) with
  | none => trivial
  | some e => exact ha e (List.mem_of_find?_eq_some hf)

theorem skipFieldsP_short (cur tgt : Nat) (fs : List (FieldIo V)) (hfs : ∀ f ∈ fs, f.Models) :
    (skipFieldsP cur tgt fs).Short (· = .io) := by
  induction fs with
  | nil => trivial
  | cons f fs ih =>
    have hf := (hfs f (by simp)).legacySkip_short
    have ih := ih fun g hg => hfs g (by simp [hg])
    simp only [skipFieldsP]
    exact .ite (.bind hf fun _ => ih) <| .ite ih <| .ite (.bind hf fun _ => ih) ih

/-! ### Writing -/

@[simp] theorem Wr.toRes_panic : Wr.panic.toRes = .panic := rfl

theorem Wr.toRes_scratch (x : Res Bytes) (k : Bytes → Wr) :
    (Wr.scratch x k).toRes = (x >>= fun b => (k b).toRes) := by
  cases x <;> rfl

theorem Wr.toRes_lengthPrefixed (b : Bytes) : (Wr.lengthPrefixed b).toRes = Revision.lengthPrefixed b := by
  unfold Wr.lengthPrefixed Revision.lengthPrefixed
  split <;> simp

theorem Wr.AllW.panic : Wr.panic.AllW := by intro o ho; simp [Wr.panic] at ho

theorem Wr.AllW.scratch {x : Res Bytes} {k : Bytes → Wr} (hk : ∀ b, (k b).AllW) : (Wr.scratch x k).AllW := by
  cases x with
  | ok b => exact hk b
  | err e => exact .fail e
  | panic => exact .panic

theorem Wr.AllW.lengthPrefixed (b : Bytes) : (Wr.lengthPrefixed b).AllW :=
  .ite ((AllW.all _).andThen (.all _)) (.fail _)

theorem writeFields_toRes (e : Entry) (he : e.optimised = false) (r : Nat) (fs : List (FieldIo V))
    (hfs : ∀ f ∈ fs, f.Models) (this : List V) :
    (writeFields r fs this).toRes =
      serializeFields (fun f v => (f.wire e).enc v) r (fs.map (·.decl)) this := by
  induction fs generalizing this with
  | nil => rfl
  | cons f fs ih =>
    have hf := (hfs f (by simp)).legacy.enc
    have ih := ih fun g hg => hfs g (by simp [hg])
    simp only [writeFields, List.map_cons, serializeFields]
    split
    · cases this with
      | nil => rfl
      | cons v vs =>
        simp only [Wr.toRes_andThen, hf, ih, FieldDecl.wire, he, Bool.false_eq_true, if_false]
    · exact ih this

theorem writeFields_small (r : Nat) (fs : List (FieldIo V)) (hfs : ∀ f ∈ fs, f.Models) (this : List V) :
    (writeFields r fs this).SmallW := by
  induction fs generalizing this with
  | nil => exact Wr.AllW.done.small
  | cons f fs ih =>
    have hf := (hfs f (by simp)).legacy.small
    have ih := ih fun g hg => hfs g (by simp [hg])
    simp only [writeFields]
    split
    · cases this with
      | nil => exact Wr.AllW.panic.small
      | cons v vs => exact (hf v).andThen (ih vs)
    · exact ih this

theorem writeStructBody_toRes (e : Entry) (fs : List (FieldIo V)) (hfs : ∀ f ∈ fs, f.Models) (this : List V) :
    (writeStructBody e fs this).toRes = serializeStructBody e (fs.map (·.decl)) this := by
  unfold writeStructBody serializeStructBody
  cases ho : e.optimised with
  | false => simpa using writeFields_toRes e ho e.revision fs hfs this
  | true =>
    simp only [if_true]
    split
    · rw [Wr.toRes_scratch]
      cases serializeIndexedFields (fun (f : FieldDecl V) v => (f.wire e).enc v) e.revision (fs.map (·.decl)) this
        (4 * aliveCount (fs.map (·.decl)) e.revision) with
      | ok p => exact Wr.toRes_lengthPrefixed _
      | err e => rfl
      | panic => rfl
    · rw [Wr.toRes_scratch]
      simp only [Wr.toRes_lengthPrefixed]

theorem writeStructBody_all (e : Entry) (ho : e.optimised = true) (fs : List (FieldIo V)) (this : List V) :
    (writeStructBody e fs this).AllW := by
  unfold writeStructBody
  simp only [ho, if_true]
  exact .ite (.scratch .lengthPrefixed) (.scratch .lengthPrefixed)

theorem structIo_models (cfg : Cfg) (h : List Entry) (fs : List (FieldIo V)) (hfs : ∀ f ∈ fs, f.Models) :
    (structIo cfg h fs).Models (structC cfg h (fs.map (·.decl))) where
  dec := dispatchRevisionP_slice cfg h _ _ fun e => deserializeStructBodyP_slice e _ fs hfs
  skip := dispatchRevisionP_slice cfg h _ _ fun e => skipStructBodyP_slice e _ fs hfs
  check := by
    show (Prog.discard _).onSlice = Rd.discard _
    rw [Prog.onSlice_discard]
    congr 1
    exact dispatchRevisionP_slice cfg h _ _ fun e => deserializeStructBodyP_slice e _ fs hfs
  enc := fun v => by
    show (Wr.andThen _ _).toRes = _
    rw [Wr.toRes_andThen, Wr.toRes_all, writeStructBody_toRes _ _ hfs]
    rfl
  skip_short := dispatchRevisionP_short (K := (· = .io)) rfl cfg h _ fun _ _ =>
    .ite (.bind (.readVarlenLen rfl) fun n => Prog.Short.advance (K := (· = .io)) rfl n) (skipFieldsP_short _ _ fs hfs)
  small := fun v => by
    refine (Wr.AllW.all _).small.andThen ?_
    cases ho : (lastEntry h).optimised with
    | true => exact (writeStructBody_all _ ho fs v).small
    | false =>
      unfold writeStructBody
      simp only [ho, Bool.false_eq_true, if_false]
      exact writeFields_small _ fs hfs v

/-! ### Enums -/

/-- The impls of the fields of a variant are those of its declaration. -/
def VariantIo.Models (v : VariantIo V) : Prop := ∀ f ∈ v.fields, f.Models

theorem variantArmsIo_map (vs : List (VariantIo V)) (r : Nat) :
    (variantArmsIo vs r).map (fun a => (a.1, a.2.decl)) = variantArms (vs.map (·.decl)) r := by
  unfold variantArmsIo variantArms
  rw [List.map_filterMap, List.filter_map, List.filterMap_map]
  congr 1
  funext v
  simp only [Function.comp]
  cases (discsAt (vs.map (·.decl)) r).lookup v.decl.ident <;> rfl

theorem find_armsIo (vs : List (VariantIo V)) (r : Nat) (p : Nat × VariantDecl V → Bool) :
    (variantArms (vs.map (·.decl)) r).find? p =
      ((variantArmsIo vs r).find? fun a => p (a.1, a.2.decl)).map fun a => (a.1, a.2.decl) := by
  rw [← variantArmsIo_map, List.find?_map]
  rfl

theorem mem_armsIo {vs : List (VariantIo V)} {r : Nat} {a : Nat × VariantIo V} (h : a ∈ variantArmsIo vs r) :
    a.2 ∈ vs := by
  unfold variantArmsIo at h
  obtain ⟨v, hv, ha⟩ := List.mem_filterMap.1 h
  cases hl : (discsAt (vs.map (·.decl)) r).lookup v.decl.ident with
  | none => rw [hl] at ha; cases ha
  | some d =>
    rw [hl] at ha
    cases ha
    exact (List.mem_filter.1 hv).1

theorem decodeLegacyVariantP_slice (e : Entry) (he : e.optimised = false) (tgt : Nat) (v : VariantIo V)
    (hv : v.Models) : (decodeLegacyVariantP e tgt v).onSlice = decodeLegacyVariant e tgt v.decl := by
  have h := decodeStructBodyP_slice e he e.revision tgt v.fields hv
  have hw : (fun f : FieldDecl V => (f.wire e).dec) = fun f => f.legacyC.dec := by
    funext f; simp [FieldDecl.wire, he]
  have hr : (fun f : FieldDecl V => f.removedDec e) = fun f => f.legacyC.dec := by
    funext f; simp [FieldDecl.removedDec, he]
  rw [hw, hr, ← v.same] at h
  simp only [decodeLegacyVariantP, decodeLegacyVariant, Prog.onSlice_bind, Prog.onSlice_ite, Prog.onSlice_lift, h]
  rfl

@[simp] theorem Prog.onSlice_readSized (size : VariantSize) :
    (Prog.readSized size).onSlice = Revision.readSized size := by
  cases size <;> simp [Prog.readSized, Revision.readSized]

theorem decodeOptimisedVariantP_slice (e : Entry) (tgt : Nat) (v : VariantIo V) :
    (decodeOptimisedVariantP e tgt v).onSlice = decodeOptimisedVariant e tgt v.decl := by
  simp only [decodeOptimisedVariantP, decodeOptimisedVariant, Prog.onSlice_bind, Prog.onSlice_ite,
    Prog.onSlice_lift, Prog.onSlice_readSized]
  rfl

theorem deserializeEnumBodyP_slice (cfg : Cfg) (e : Entry) (tgt : Nat) (vs : List (VariantIo V))
    (hvs : ∀ v ∈ vs, v.Models) :
    (deserializeEnumBodyP cfg e tgt vs).onSlice = deserializeEnumBody cfg e tgt (vs.map (·.decl)) := by
  unfold deserializeEnumBodyP deserializeEnumBody
  cases ho : e.optimised with
  | true =>
    simp only [if_true, Prog.onSlice_bind, Prog.onSlice_readOptimisedTag]
    congr 1
    funext ⟨tag, sc⟩
    simp only [find_armsIo]
    cases (variantArmsIo vs e.revision).find? _ with
    | none => rfl
    | some a => exact decodeOptimisedVariantP_slice e tgt a.2
  | false =>
    simp only [Bool.false_eq_true, if_false, Prog.onSlice_bind, Prog.onSlice_readU32]
    congr 1
    funext d
    simp only [find_armsIo]
    cases hf : (variantArmsIo vs e.revision).find? (fun a => a.1 == d) with
    | none => rfl
    | some a => exact decodeLegacyVariantP_slice e ho tgt a.2 (hvs _ (mem_armsIo (List.mem_of_find?_eq_some hf)))

theorem skipEnumBodyP_slice (cfg : Cfg) (e : Entry) (tgt : Nat) (vs : List (VariantIo V))
    (hvs : ∀ v ∈ vs, v.Models) :
    (skipEnumBodyP cfg e tgt vs).onSlice =
      skipEnumBody cfg Rd.advance FieldDecl.legacySkip e tgt (vs.map (·.decl)) := by
  unfold skipEnumBodyP skipEnumBody
  cases ho : e.optimised with
  | true =>
    simp only [if_true, Prog.onSlice_bind, Prog.onSlice_readOptimisedTag]
    congr 1
    funext ⟨tag, sc⟩
    cases sc <;> simp
  | false =>
    simp only [Bool.false_eq_true, if_false, Prog.onSlice_bind, Prog.onSlice_readU32]
    congr 1
    funext d
    simp only [find_armsIo]
    cases hf : (variantArmsIo vs e.revision).find? (fun a => a.1 == d) with
    | none => rfl
    | some a =>
      have hm := hvs _ (mem_armsIo (List.mem_of_find?_eq_some hf))
      simp only [Option.map_some, a.2.same]
      exact skipFieldsP_slice _ _ _ hm

theorem skipEnumBodyP_short (cfg : Cfg) (e : Entry) (tgt : Nat) (vs : List (VariantIo V))
    (hvs : ∀ v ∈ vs, v.Models) : (skipEnumBodyP cfg e tgt vs).Short (· = .io) := by
  unfold skipEnumBodyP
  refine .ite (.bind (.readOptimisedTag rfl) fun ⟨tag, sc⟩ => ?_) (.bind (Prog.Short.readU32 (K := (· = .io)) rfl cfg) fun d => ?_)
  · cases sc with
    | inline => trivial
    | fixed => exact Prog.Short.advance (K := (· = .io)) rfl _
    | varlen => exact .bind (.readVarlenLen rfl) fun n => Prog.Short.advance (K := (· = .io)) rfl n
  · cases hf : (variantArmsIo vs e.revision).find? (fun a => a.1 == d) with
    | none => trivial
    | some a => exact skipFieldsP_short _ _ _ (hvs _ (mem_armsIo (List.mem_of_find?_eq_some hf)))

theorem writeEnumBody_toRes (cfg : Cfg) (e : Entry) (vs : List (VariantIo V)) (hvs : ∀ v ∈ vs, v.Models)
    (x : EnumVal V) : (writeEnumBody cfg e vs x).toRes = serializeEnumBody cfg e (vs.map (·.decl)) x := by
  unfold writeEnumBody serializeEnumBody
  rw [find_armsIo]
  cases hf : (variantArmsIo vs e.revision).find? (fun a => a.2.decl.ident == x.variant) with
  | none => rfl
  | some a =>
    obtain ⟨id, v⟩ := a
    simp only [Option.map_some]
    cases ho : e.optimised with
    | true =>
      simp only [if_true, Wr.toRes_andThen, Wr.toRes_all, Wr.toRes_scratch]
      cases serializeFields (fun (f : FieldDecl V) w => (f.variantWire e).enc w) e.revision v.decl.fields x.fields with
      | err e => rfl
      | panic => rfl
      | ok body =>
        simp only [serializeSized]
        cases v.decl.opts.size.getD .inline with
        | inline => rfl
        | fixed n => simp
        | varlen =>
          simp only [Wr.toRes_lengthPrefixed]
          cases Revision.lengthPrefixed body <;> rfl
    | false =>
      have hm := hvs _ (mem_armsIo (List.mem_of_find?_eq_some hf))
      have h := writeFields_toRes e ho e.revision v.fields hm x.fields
      have hw : (fun (f : FieldDecl V) (w : V) => (f.variantWire e).enc w) = fun f w => (f.wire e).enc w := by
        funext f; simp [FieldDecl.wire, FieldDecl.variantWire, ho]
      simp only [Bool.false_eq_true, if_false, Wr.toRes_andThen, Wr.toRes_all, h, hw, v.same]
      cases serializeFields (fun (f : FieldDecl V) w => (f.wire e).enc w) e.revision (v.fields.map (·.decl)) x.fields <;> rfl

theorem writeEnumBody_all (cfg : Cfg) (e : Entry) (ho : e.optimised = true) (vs : List (VariantIo V))
    (x : EnumVal V) : (writeEnumBody cfg e vs x).AllW := by
  unfold writeEnumBody
  split
  · exact .panic
  · simp only [ho, if_true]
    refine (Wr.AllW.all _).andThen (.scratch fun b => ?_)
    split
    · exact .done
    · exact .all _
    · exact .lengthPrefixed _

theorem writeEnumBody_small (cfg : Cfg) (e : Entry) (vs : List (VariantIo V)) (hvs : ∀ v ∈ vs, v.Models)
    (x : EnumVal V) : (writeEnumBody cfg e vs x).SmallW := by
  cases ho : e.optimised with
  | true => exact (writeEnumBody_all cfg e ho vs x).small
  | false =>
    unfold writeEnumBody
    cases hf : (variantArmsIo vs e.revision).find? (fun a => a.2.decl.ident == x.variant) with
    | none => exact Wr.AllW.panic.small
    | some a =>
      simp only [ho, Bool.false_eq_true, if_false]
      exact (Wr.AllW.all _).small.andThen
        (writeFields_small _ _ (hvs _ (mem_armsIo (List.mem_of_find?_eq_some hf))) _)

theorem enumIo_models (cfg : Cfg) (h : List Entry) (vs : List (VariantIo V)) (hvs : ∀ v ∈ vs, v.Models) :
    (enumIo cfg h vs).Models (enumC cfg h (vs.map (·.decl))) where
  dec := dispatchRevisionP_slice cfg h _ _ fun e => deserializeEnumBodyP_slice cfg e _ vs hvs
  skip := dispatchRevisionP_slice cfg h _ _ fun e => skipEnumBodyP_slice cfg e _ vs hvs
  check := by
    show (Prog.discard _).onSlice = Rd.discard _
    rw [Prog.onSlice_discard]
    congr 1
    exact dispatchRevisionP_slice cfg h _ _ fun e => deserializeEnumBodyP_slice cfg e _ vs hvs
  enc := fun v => by
    show (Wr.andThen _ _).toRes = _
    rw [Wr.toRes_andThen, Wr.toRes_all, writeEnumBody_toRes _ _ _ hvs]
    rfl
  skip_short := dispatchRevisionP_short (K := (· = .io)) rfl cfg h _ fun e _ => skipEnumBodyP_short cfg e _ vs hvs
  small := fun v => (Wr.AllW.all _).small.andThen (writeEnumBody_small cfg _ vs hvs v)

/-! ### Types and programs -/

section
variable {ι : Type}

/-- The impls of the further types as readers. -/
def readersOf {E : Env ι} (ext : (i : ι) → Io (E.X i)) (h : ∀ i, (ext i).Models (E.extC i)) : E.Readers where
  dec i := (ext i).dec
  skip i := (ext i).skip
  check i := (ext i).check
  dec_slice i := (h i).dec
  skip_slice i := (h i).skip
  check_slice i := (h i).check

/-- The impls of the further types as writers. -/
def writersOf {E : Env ι} (ext : (i : ι) → Io (E.X i)) (h : ∀ i, (ext i).Models (E.extC i)) : E.Writers where
  wr i := (ext i).wr
  to_vec i x := by
    rw [(Wr.run_vec _).1, ← (h i).enc x, Wr.toRes]
    cases ((ext i).wr x).fin <;> rfl
  to_vec_bytes i x b hb := by
    rw [(Wr.run_vec _).2]
    rw [← (h i).enc x, Wr.toRes] at hb
    cases hf : ((ext i).wr x).fin <;> rw [hf] at hb <;> cases hb
    rfl
  small i x := (h i).small x

theorem Ty.io_models (cfg : Cfg) {E : Env ι} {ext : (i : ι) → Io (E.X i)} (h : ∀ i, (ext i).Models (E.extC i))
    (t : Ty ι) : (t.io cfg E ext).Models (t.codec cfg E) where
  dec := Ty.decP_slice cfg E _ (fun i => (h i).dec) t
  skip := Ty.skipP_slice cfg E _ (fun i => (h i).skip) t
  check := Ty.checkP_slice cfg E _ _ (fun i => (h i).dec) (fun i => (h i).check) t
  enc := Ty.writes_toRes cfg E (writersOf ext h) t
  skip_short := Ty.skipP_short (K := (· = .io)) rfl cfg E _ (fun i => (h i).skip_short) t
  small := Ty.writes_small cfg E (writersOf ext h) t

theorem fixedIo_models (n : Nat) : (fixedIo n).Models (fixedC n) where
  dec := Prog.onSlice_readLE _ _
  skip := by show (Prog.discard _).onSlice = _; rw [Prog.onSlice_discard, Prog.onSlice_readExact]; rfl
  check := by show (Prog.discard _).onSlice = _; rw [Prog.onSlice_discard, Prog.onSlice_readExact]; rfl
  enc := fun _ => Wr.toRes_all _
  skip_short := .bind (.readExact rfl n) fun _ => trivial
  small := fun _ => (Wr.AllW.all _).small

theorem fixedIoOf_models (cfg : Cfg) {E : Env ι} {ext : (i : ι) → Io (E.X i)}
    (h : ∀ i, (ext i).Models (E.extC i)) (t : Ty ι) :
    (fixedIoOf cfg E ext t).Models (fixedOf cfg E t) := by
  have ht := Ty.io_models cfg h t
  cases t <;> try exact ht
  rename_i k
  cases k <;> first | exact ht | exact fixedIo_models _

theorem bulkIoOf_models (cfg : Cfg) {E : Env ι} {ext : (i : ι) → Io (E.X i)}
    (h : ∀ i, (ext i).Models (E.extC i)) (t : Ty ι) :
    (bulkIoOf cfg E ext t).Models (bulkOf cfg E t) := by
  have ht := Ty.io_models cfg h t
  cases t <;> try exact ht
  rename_i t
  have ht := Ty.io_models cfg h t
  exact
    { dec := vecP_slice _ E t _ _ ht.dec
      skip := vecSkipP_slice _ E t _ _ ht.skip
      check := by
        show (Prog.discard _).onSlice = (vecOf _ E t _).check
        rw [Prog.onSlice_discard, vecP_slice _ E t _ _ ht.dec, vecOf_check]
      enc := fun v => vecW_toRes _ E t _ _ ht.enc v
      skip_short := vecSkipP_short (K := (· = .io)) rfl _ t _ ht.skip_short
      small := fun v => vecW_small _ E t _ ht.small v }

variable [DecidableEq ι]

theorem dynIo_models {E : Env ι} (t : Ty ι) {p : Io (t.denote E.X)} {c : Codec (t.denote E.X)} (h : p.Models c) :
    (dynIo t p).Models (dynC t c) where
  dec := by
    show ((p.dec >>= fun a => (pure ⟨t, a⟩ : Prog (Dyn E)))).onSlice = _
    rw [Prog.onSlice_bind, h.dec]
    rfl
  skip := h.skip
  check := h.check
  enc := fun v => by
    simp only [dynIo, dynC, Codec.embed]
    cases Dyn.proj t v with
    | none => rfl
    | some a => exact h.enc a
  skip_short := h.skip_short
  small := fun v => by
    simp only [dynIo]
    cases Dyn.proj t v with
    | none => exact Wr.AllW.panic.small
    | some a => exact h.small a

variable {K : ι → Kind}

theorem Field.io_models (cfg : Cfg) (I : Impls K) (n : Nat) {c : (i : ι) → Codec (Values K n i)}
    {ext : (i : ι) → Io (Values K n i)} (h : ∀ i, (ext i).Models (c i)) (f : Field K) :
    (f.io cfg I n c ext).Models where
  plain := dynIo_models (E := I.env n c) f.ty (Ty.io_models cfg (E := I.env n c) h f.ty)
  fixedLe := dynIo_models (E := I.env n c) f.ty (fixedIoOf_models cfg (E := I.env n c) h f.ty)
  bulk := dynIo_models (E := I.env n c) f.ty (bulkIoOf_models cfg (E := I.env n c) h f.ty)

theorem Body.io_models (cfg : Cfg) (I : Impls K) (n : Nat) {c : (i : ι) → Codec (Values K n i)}
    {ext : (i : ι) → Io (Values K n i)} (h : ∀ i, (ext i).Models (c i)) (hist : List Entry) :
    {k : Kind} → (b : Body K k) → (b.io cfg I n c ext hist).Models (b.codec cfg I n c hist)
  | _, .struct fs => by
    have := structIo_models cfg hist (fs.map (·.io cfg I n c ext)) (by
      intro f hf
      obtain ⟨f, _, rfl⟩ := List.mem_map.1 hf
      exact f.io_models cfg I n h)
    rw [List.map_map] at this
    exact this
  | _, .enum vs => by
    have := enumIo_models cfg hist (vs.map (·.io cfg I n c ext)) (by
      intro v hv f hf
      obtain ⟨v, _, rfl⟩ := List.mem_map.1 hv
      obtain ⟨f, _, rfl⟩ := List.mem_map.1 hf
      exact f.io_models cfg I n h)
    rw [List.map_map] at this
    exact this
  | _, .foreign x => x.models

theorem neverIo_models : neverIo.Models neverC where
  dec := rfl
  skip := rfl
  check := rfl
  enc := nofun
  skip_short := trivial
  small := nofun

theorem Program.io_models (cfg : Cfg) (P : Program ι) (I : Impls P.kind) (n : Nat) (i : ι) :
    (P.io cfg I n i).Models (P.codec cfg I n i) := by
  induction n generalizing i with
  | zero => exact neverIo_models
  | succ n ih => exact Body.io_models cfg I n ih (P.history i) (P.body i)

end

end Revision
