import Verif.Proofs.DeriveIo
import Verif.Proofs.MachineWalker

/-! # How far readers read -/

namespace Revision

theorem Prog.framed (p : Prog α) : p.onSlice.Framed := by
  induction p with
  | pure a => exact Rd.Framed.pure a
  | fail e => exact Rd.Framed.fail e
  | panic => exact Rd.Framed.panic
  | exact n f k ih => exact ((Rd.Framed.readExact n).mapErr f).bind ih
  | take n f k ih => exact ((Rd.Framed.readExact n).mapErr f).bind ih

theorem skipFields_congr {V : Type} {k k' : FieldDecl V → Rd Unit} {cur tgt : Nat} :
    {fs : List (FieldDecl V)} → (∀ f ∈ fs, k f = k' f) → skipFields k cur tgt fs = skipFields k' cur tgt fs
  | [], _ => rfl
  | f :: fs, h => by
    simp only [skipFields, h f (.head _), skipFields_congr fun g hg => h g (.tail _ hg)]

theorem skipSStructBody_eq {V : Type} (e : Entry) (tgt : Nat) (fs : List (FieldDecl V)) (h : ∀ f ∈ fs, f.legacySkipS = f.legacySkip) :
    skipSStructBody e tgt fs = skipStructBody e tgt fs := by
  simp only [skipSStructBody, skipStructBody, Rd.consume_eq, skipFields_congr h]

theorem skipEnumBody_congr {V : Type} (cfg : Cfg) (e : Entry) (tgt : Nat) (vs : List (VariantDecl V))
    (h : ∀ v ∈ vs, ∀ f ∈ v.fields, f.legacySkipS = f.legacySkip) :
    skipEnumBody cfg Rd.consume FieldDecl.legacySkipS e tgt vs = skipEnumBody cfg Rd.advance FieldDecl.legacySkip e tgt vs := by
  have hc : Rd.consume = Rd.advance := funext Rd.consume_eq
  simp only [skipEnumBody, hc]
  split
  · rfl
  · congr 1
    funext d
    split
    · rename_i a ha
      exact skipFields_congr (h a.2 ((mem_variantArms.1 (List.mem_of_find?_eq_some ha)).1))
    · rfl

namespace Machine

section
variable {ι : Type} {K : ι → Kind} [DecidableEq ι] {M : Machine} {cfg : Cfg} {I : Impls K} {n : Nat}
  {c : (i : ι) → Codec (Values K n i)}

theorem decl_skipS (hc : ∀ i, (c i).skipS = (c i).skip) (f : Field K) :
    (M.decl cfg I n c f).legacySkipS = (M.decl cfg I n c f).legacySkip := by
  have e : (M.decl cfg I n c f).plain.skipS = (M.decl cfg I n c f).plain.skip :=
    codec_skipS (E := I.env n c) hc f.ty
  simp only [FieldDecl.legacySkipS, FieldDecl.legacySkip, e]

theorem body_skipS (hc : ∀ i, (c i).skipS = (c i).skip) (h : List Entry) :
    {k : Kind} → (b : Body K k) → (M.body cfg I n c h b).skipS = (M.body cfg I n c h b).skip
  | _, .struct fs => by
    have : ∀ e, skipSStructBody e (latest h) (fs.map (M.decl cfg I n c)) = skipStructBody e (latest h) (fs.map (M.decl cfg I n c)) :=
      fun e => skipSStructBody_eq e _ _ fun f hf => by
        obtain ⟨g, _, rfl⟩ := List.mem_map.1 hf
        exact decl_skipS hc g
    simp only [body, structC, this]
  | _, .enum vs => by
    have := fun e => skipEnumBody_congr cfg e (latest h) (vs.map (M.variant cfg I n c)) fun v hv f hf => by
      obtain ⟨w, _, rfl⟩ := List.mem_map.1 hv
      obtain ⟨g, _, rfl⟩ := List.mem_map.1 hf
      exact decl_skipS hc g
    simp only [body, enumC, this]
  | _, .foreign x => x.skipS_eq

end

theorem program_skipS {ι : Type} [DecidableEq ι] (M : Machine) (cfg : Cfg) (P : Program ι) (I : Impls P.kind) (i : ι) :
    (n : Nat) → (M.program cfg P I n i).skipS = (M.program cfg P I n i).skip
  | 0 => rfl
  | n + 1 => body_skipS (fun i => program_skipS M cfg P I i n) (P.history i) (P.body i)

end Machine

/-! ### What readers consume, on every machine -/

open Rd

section
variable {V : Type}

theorem decodeFields_framed {live removed : FieldDecl V → Rd V} {cur tgt : Nat} :
    {fs : List (FieldDecl V)} → (∀ f ∈ fs, (live f).Framed ∧ (removed f).Framed) → (env : Binds V) →
      (decodeFields live removed cur tgt fs env).Framed
  | [], _, _ => .pure _
  | f :: fs, h, env => by
    have hf := h f (.head _)
    have ih := fun env => decodeFields_framed (cur := cur) (tgt := tgt) (fun g hg => h g (.tail _ hg)) env
    unfold decodeFields
    exact .ite (hf.1.bind fun _ => ih _) (.ite ((Framed.lift _).bind fun _ => ih _) (.ite (hf.2.bind fun _ => ih _) (ih _)))

theorem decodeStructBody_framed {live removed : FieldDecl V → Rd V} {cur tgt : Nat} {fs : List (FieldDecl V)}
    (h : ∀ f ∈ fs, (live f).Framed ∧ (removed f).Framed) : (decodeStructBody live removed cur tgt fs).Framed :=
  (decodeFields_framed h _).bind fun _ => (Framed.lift _).bind fun _ => .lift _

theorem readLengthPrefixed_framed : readLengthPrefixed.Framed :=
  ((Framed.readExact 4).bind fun _ => .pure _).bind fun _ => .readExact _

theorem dispatchRevision_framed (cfg : Cfg) (h : List Entry) {arm : Entry → Rd α} (ha : ∀ e, (arm e).Framed) :
    (dispatchRevision cfg h arm).Framed := by
  refine (readU16_framed cfg).bind fun r => ?_
  cases h.find? (fun e => e.revision == r) with
  | some e => exact ha e
  | none => exact .fail _

theorem deserializeStructBody_framed (e : Entry) (tgt : Nat) {fs : List (FieldDecl V)} (h : ∀ f ∈ fs, f.legacyC.dec.Framed) :
    (deserializeStructBody e tgt fs).Framed := by
  unfold deserializeStructBody
  split
  · exact readLengthPrefixed_framed.bind fun _ => .ite (.ite (.fail _) (.lift _)) (.lift _)
  · rename_i ho
    refine decodeStructBody_framed fun f hf => ?_
    simp only [FieldDecl.wire, FieldDecl.removedDec, ho]
    exact ⟨h f hf, h f hf⟩

theorem readSized_framed (size : VariantSize) : (readSized size).Framed := by
  cases size with
  | inline => exact .pure _
  | fixed n => exact .readExact n
  | varlen => exact readLengthPrefixed_framed

theorem deserializeEnumBody_framed (cfg : Cfg) (e : Entry) (tgt : Nat) {vs : List (VariantDecl V)}
    (h : ∀ v ∈ vs, ∀ f ∈ v.fields, f.legacyC.dec.Framed) : (deserializeEnumBody cfg e tgt vs).Framed := by
  unfold deserializeEnumBody
  split
  · refine (Framed.readByte.bind fun _ => (Framed.lift _).bind fun _ => .pure _).bind fun x => ?_
    obtain ⟨tag, sc⟩ := x
    simp only
    split
    · exact (readSized_framed _).bind fun _ => (Framed.lift _).bind fun _ => .ite (.pure _) (.lift _)
    · exact .fail _
  · refine (readU32_framed cfg).bind fun d => ?_
    split
    · rename_i a ha
      have hm := (mem_variantArms.1 (List.mem_of_find?_eq_some ha)).1
      exact (decodeStructBody_framed fun f hf => ⟨h _ hm f hf, h _ hm f hf⟩).bind fun _ => .ite (.pure _) (.lift _)
    · exact .fail _

end

namespace Machine
variable {ι : Type} {M : Machine} {cfg : Cfg} {E : Env ι}

theorem decInt_framed (k : IntTy) : (M.decInt cfg k).Framed := by
  cases k <;> first | exact (Revision.decInt_framed cfg _).bind fun _ => .pure _ | exact Revision.decInt_framed cfg _

theorem readLen_framed : (M.readLen cfg).Framed := (decInt_framed .usize).bind fun _ => .pure _

theorem readBytes_framed (cap) : (M.readBytes cfg cap).Framed :=
  readLen_framed.bind fun _ => .ite (.pure _) ((Framed.alloc _).bind fun _ => .readExact _)

theorem vecC_framed (cap) {c : Codec α} (h : c.dec.Framed) : (M.vecC cfg cap c).dec.Framed :=
  readLen_framed.bind fun _ => .ite (.pure _) ((Framed.alloc _).bind fun _ => .readN h _)

theorem bulkC_framed (cap W w) : (M.bulkC cfg cap W w).dec.Framed :=
  readLen_framed.bind fun _ => .ite (.pure _) ((Framed.lift _).bind fun _ => (Framed.alloc _).bind fun _ => (Framed.readExact _).bind fun _ => .pure _)

theorem boolsC_framed (cap) : (M.boolsC cfg cap).dec.Framed :=
  readLen_framed.bind fun _ => .ite (.pure _) ((Framed.alloc _).bind fun _ => (Framed.readExact _).bind fun _ => (Framed.alloc _).bind fun _ => .pure _)

theorem collC_framed (cap) {c : Codec α} (h : c.dec.Framed) (inv build) : (M.collC cfg cap c inv build).dec.Framed :=
  readLen_framed.bind fun _ => (Framed.alloc _).bind fun _ => (Framed.readN h _).bind fun _ => .pure _

theorem pairC_framed {c : Codec α} {d : Codec β} (hc : c.dec.Framed) (hd : d.dec.Framed) : (pairC c d).dec.Framed :=
  hc.bind fun _ => hd.bind fun _ => .pure _

theorem vecOf_framed (t : Ty ι) {c : Codec (t.denote E.X)} (hc : c.dec.Framed) : (M.vecOf cfg E t c).dec.Framed := by
  cases t <;> simp only [vecOf] <;> (try split) <;> first | exact vecC_framed _ hc | exact bulkC_framed _ _ _ | exact boolsC_framed _

theorem codec_framed (hx : ∀ i, (E.extC i).dec.Framed) (t : Ty ι) : (M.codec cfg E t).dec.Framed := by
  induction t with
  | unit => exact unitC_lawful.framed
  | bool => exact boolC_lawful.framed
  | int k => exact decInt_framed k
  | float n => exact (floatC_lawful _).framed
  | char => exact charC_lawful.framed
  | string => exact (readBytes_framed _).bind fun _ => .lift _
  | path => exact ((readBytes_framed _).bind fun _ => .lift _).bind fun _ => .pure _
  | bytes => exact readBytes_framed _
  | uuid => exact uuidC_lawful.framed
  | duration => exact (durationC_lawful cfg).framed
  | systemTime => exact (systemTimeC_lawful cfg).framed
  | notNan n => exact (notNanC_lawful _).framed
  | option t ih => exact (Revision.decInt_framed cfg .u8).bind fun _ => .ite (.pure _) (.ite (ih.bind fun _ => .pure _) (.fail _))
  | result t e iht ihe => exact (readU32_framed cfg).bind fun _ => .ite ((iht.mapErr _).bind fun _ => .pure _) (.ite ((ihe.mapErr _).bind fun _ => .pure _) (.fail _))
  | bound t ih => exact (readU32_framed cfg).bind fun _ => .ite (.pure _) (.ite ((ih.mapErr _).bind fun _ => .pure _)
      (.ite ((ih.mapErr _).bind fun _ => .pure _) (.fail _)))
  | wrap t ih => exact ih
  | pair s t ihs iht => exact pairC_framed ihs iht
  | array n t ih => exact .readN ih n
  | vec t ih => exact vecOf_framed t ih
  | btreeMap k v ihk ihv => exact collC_framed _ (pairC_framed ihk ihv) _ _
  | btreeSet k ih => exact collC_framed _ ih _ _
  | hashMap k v ihk ihv => exact collC_framed _ (pairC_framed ihk ihv) _ _
  | hashSet k ih => exact collC_framed _ ih _ _
  | binaryHeap t ih => exact collC_framed _ ih _ _
  | vector t ih => exact collC_framed _ ih _ _
  | ext i => exact hx i

theorem fixedOf_framed (hx : ∀ i, (E.extC i).dec.Framed) (t : Ty ι) : (M.fixedOf cfg E t).dec.Framed := by
  cases t with
  | int k => cases k <;> first | exact (fixedC_lawful _).framed | exact decInt_framed (M := M) _
  | _ => exact codec_framed hx _

theorem bulkOf_framed (hx : ∀ i, (E.extC i).dec.Framed) (t : Ty ι) : (M.bulkOf cfg E t).dec.Framed := by
  cases t with
  | vec t => exact vecOf_framed t (codec_framed hx t)
  | _ => exact codec_framed hx _

section
variable {K : ι → Kind} [DecidableEq ι] {I : Impls K} {n : Nat} {c : (i : ι) → Codec (Values K n i)}

theorem decl_framed (hc : ∀ i, (c i).dec.Framed) (f : Field K) : (M.decl cfg I n c f).legacyC.dec.Framed := by
  unfold FieldDecl.legacyC
  split
  · exact (fixedOf_framed (E := I.env n c) hc f.ty).map
  · split
    · exact (bulkOf_framed (E := I.env n c) hc f.ty).map
    · exact (codec_framed (E := I.env n c) hc f.ty).map

theorem body_framed (hc : ∀ i, (c i).dec.Framed) (h : List Entry) :
    {k : Kind} → (b : Body K k) → (M.body cfg I n c h b).dec.Framed
  | _, .struct fs => dispatchRevision_framed cfg h fun e => deserializeStructBody_framed e _ fun f hf => by
      obtain ⟨g, _, rfl⟩ := List.mem_map.1 hf
      exact decl_framed hc g
  | _, .enum vs => dispatchRevision_framed cfg h fun e => deserializeEnumBody_framed cfg e _ fun v hv f hf => by
      obtain ⟨w, _, rfl⟩ := List.mem_map.1 hv
      obtain ⟨g, _, rfl⟩ := List.mem_map.1 hf
      exact decl_framed hc g
  | _, .foreign x => x.dec_slice ▸ Prog.framed _

end

theorem program_framed [DecidableEq ι] (M : Machine) (cfg : Cfg) (P : Program ι) (I : Impls P.kind) (i : ι) :
    (n : Nat) → (M.program cfg P I n i).dec.Framed
  | 0 => .fail _
  | n + 1 => body_framed (fun i => program_framed M cfg P I i n) (P.history i) (P.body i)

end Machine

end Revision
