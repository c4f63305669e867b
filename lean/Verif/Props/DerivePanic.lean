import Verif.Proofs.DerivePanic
import Verif.Props.DeriveWalk
import Verif.Props.DeriveEnum

/-! # C60, C68, C69: generated code and indexed collections on arbitrary bytes -/

namespace Revision

variable {V : Type}

/-! ## C68 Derived deserialisation does not panic on corrupt input -/

/-- Deserialising, skipping and checking arbitrary bytes as a derived struct never panics, unless the
code of a field type or a function the user supplied does. -/
theorem C68_struct (cfg : Cfg) (h : List Entry) (fs : List (FieldDecl V))
    (hn : ∀ e ∈ h, DistinctNames fs e.revision (latest h)) (hs : ∀ f ∈ fs, f.Safe) :
    (structC cfg h fs).NeverPanics := by
  have hd : (structC cfg h fs).dec.NoPanic := dispatch_noPanic cfg h fun e he =>
    deserializeStructBody_noPanic e (latest h) fs (hn e he) hs
  refine ⟨hd, ?_, ?_, hd.discard⟩
  · exact dispatch_noPanic cfg h fun e _ => Rd.NoPanic.ite
      (Rd.NoPanic.bind readVarlenLen_noPanic fun _ => Rd.NoPanic.advance _)
      (skipFields_noPanic fs fun f hf => (hs f hf).legacySkip)
  · exact dispatch_noPanic cfg h fun e _ => Rd.NoPanic.ite
      (Rd.NoPanic.bind readVarlenLen_noPanic fun _ => Rd.NoPanic.consume _)
      (skipFields_noPanic fs fun f hf => (hs f hf).legacySkipS)

/-- The same for enums. -/
theorem C68_enum (cfg : Cfg) (h : List Entry) (vs : List (VariantDecl V))
    (hn : ∀ e ∈ h, ∀ v ∈ vs, DistinctNames v.fields e.revision (latest h))
    (hs : ∀ v ∈ vs, v.Safe (latest h)) :
    (enumC cfg h vs).NeverPanics := by
  have hd : (enumC cfg h vs).dec.NoPanic := dispatch_noPanic cfg h fun e he =>
    deserializeEnumBody_noPanic cfg e (latest h) vs (hn e he) hs
  refine ⟨hd, ?_, ?_, hd.discard⟩
  · exact dispatch_noPanic cfg h fun e _ => skipEnumBody_noPanic cfg Rd.NoPanic.advance e _ vs
      fun v hv f hf => ((hs v hv).fields f hf).legacySkip
  · exact dispatch_noPanic cfg h fun e _ => skipEnumBody_noPanic cfg Rd.NoPanic.consume e _ vs
      fun v hv f hf => ((hs v hv).fields f hf).legacySkipS

section
variable {ι : Type} [DecidableEq ι]

theorem dynC_panicFree {E : Env ι} (t : Ty ι) {c : Codec (t.denote E.X)} (h : c.PanicFree) :
    (dynC t c).PanicFree := ⟨h.dec.bind fun _ => Rd.NoPanic.pure _, h.skip, h.check⟩

/-- A field with one of the supported types, not containing a time, is safe if the user's functions
are, apart from refused allocations and except for `indexed_map` (`C69_map_overflow_false`). -/
theorem C68_supported_fields (cfg : Cfg) (E : Env ι) (hE : E.Lawful)
    (hx : ∀ i, (E.extC i).PanicFree) (name : String) (opts : FieldOptions) (t : Ty ι)
    (ht : t.timeFree = true) (hm : opts.indexedMap = false)
    (hi : opts.indexedSeq = true ∨ opts.indexedSet = true →
      (∃ a, t = .vec a) ∨ (∃ a, t = .vector a) ∨ (∃ a, t = .btreeSet a) ∨ (∃ a, t = .hashSet a))
    (dflt : Nat → Res (t.denote E.unlimited.X)) (hd : ∀ r, dflt r ≠ .panic)
    (convert : Nat → t.denote E.unlimited.X → List (Dyn E.unlimited) → Res (List (Dyn E.unlimited)))
    (hc : ∀ r a this, convert r a this ≠ .panic) :
    (tyField cfg E.unlimited name opts t dflt convert).Safe := by
  have hp := fun (t : Ty ι) ht => Ty.codec_panicFree (E := E.unlimited) cfg (fun _ _ => rfl) hx t ht
  refine ⟨dynC_panicFree t (hp t ht), ?_, dynC_panicFree t ?_, dynC_panicFree t ?_, ?_, ?_, ?_⟩
  · show (t.codec cfg E.unlimited).skipS.NoPanic
    rw [(t.codec_lawful cfg (E := E.unlimited) ⟨hE.ext, fun _ _ _ _ _ => rfl, hE.trans⟩).skipS_eq]
    exact (hp t ht).skip
  · cases t <;> first
      | exact hp _ ht
      | (rename_i k; cases k <;> first | exact intC_panicFree cfg _ | exact fixedC_panicFree _)
  · cases t <;> first
      | exact hp _ ht
      | exact vecOf_panicFree _ (fun _ _ => rfl) _ (hp _ ht)
  · intro h
    refine dynC_panicFree t ?_
    have : opts.indexedSeq = true ∨ opts.indexedSet = true := by
      simpa [FieldDecl.isIndexed, tyField, hm] using h
    rcases hi this with ⟨a, rfl⟩ | ⟨a, rfl⟩ | ⟨a, rfl⟩ | ⟨a, rfl⟩
    · exact indexedSeqC_panicFree (fun _ => rfl) (hp a ht)
    · exact indexedSeqC_panicFree (fun _ => rfl) (hp a ht)
    · exact indexedBTreeSetC_panicFree (fun _ => rfl) _ (hp a ht)
    · exact indexedHashSetC_panicFree (fun _ => rfl) _ (hp a ht)
  · intro r
    have := hd r
    simp only [tyField]
    cases hr : dflt r with
    | ok a => simp [bind, Res.bind, pure]
    | err e => simp [bind, Res.bind]
    | panic => exact absurd hr this
  · rintro r v this ⟨s, rest, hv⟩
    have : ∃ a, v = ⟨t, a⟩ := by
      rcases hv with hv | hv | hv <;>
      · obtain ⟨a, s', _, hv⟩ := Rd.bind_ok.1 hv
        cases hv
        exact ⟨a, rfl⟩
    obtain ⟨a, rfl⟩ := this
    simp only [tyField, (Dyn.proj_eq_some t _ a).2 rfl]
    exact hc _ _ _

end

/-- A struct `{ a: u32, #[revision(start = 2, indexed_seq)] l: Vec<String> }`. -/
def safeFields : List (FieldDecl (Dyn demoEnv.unlimited)) :=
  [tyField .default demoEnv.unlimited "a" {} (.int .u32) (fun _ => .ok 0) (fun _ _ this => .ok this),
   tyField .default demoEnv.unlimited "l" { start := some 2, indexedSeq := true } (.vec .string)
     (fun _ => .ok []) (fun _ _ this => .ok this)]

theorem safeFields_safe : ∀ f ∈ safeFields, f.Safe := by
  intro f hf
  simp only [safeFields, List.mem_cons, List.not_mem_nil, or_false] at hf
  rcases hf with rfl | rfl
  · exact C68_supported_fields .default demoEnv demoEnv_lawful (fun e => nomatch e) _ _ _ rfl rfl
      (by simp) _ (by simp) _ (by simp)
  · exact C68_supported_fields .default demoEnv demoEnv_lawful (fun e => nomatch e) _ _ _ rfl rfl
      (fun _ => .inl ⟨_, rfl⟩) _ (by simp) _ (by simp)

example (s : Bytes) : (structC .default [⟨1, false, false⟩, ⟨2, true, true⟩] safeFields).dec s ≠ .panic :=
  (C68_struct .default _ safeFields (by
    simp [safeFields, DistinctNames, tyField, FieldDecl.existsAt, existsAt, latest]) safeFields_safe).dec s

/-- An enum `{ A(u32), #[revision(end = 2, convert_fn = "…")] B { … } }`. -/
example (s : Bytes) : (enumC .default [⟨1, false, false⟩, ⟨2, true, false⟩]
    [⟨"A", { size := some .varlen }, safeFields.take 1, fun _ _ => .panic⟩,
     ⟨"B", { stop := some 2, convert := some "…" }, safeFields, fun fields _ => .ok ⟨"A", fields⟩⟩]).dec s ≠ .panic := by
  refine (C68_enum .default _ _ ?_ ?_).dec s
  · simp [safeFields, DistinctNames, tyField, FieldDecl.existsAt, existsAt, latest]
  · intro v hv
    simp only [List.mem_cons, List.not_mem_nil, or_false] at hv
    rcases hv with rfl | rfl
    · exact ⟨fun f hf => safeFields_safe f (List.mem_of_mem_take hf), fun h => by cases h⟩
    · exact ⟨safeFields_safe, fun _ _ _ _ => by simp⟩

/-! ## C60 Generated walkers on corrupt input -/

theorem walkStruct_noPanic (cfg : Cfg) (h : List Entry) (fs : List (FieldDecl V))
    (hn : ∀ e ∈ h, DistinctNames fs e.revision (latest h)) (hs : ∀ f ∈ fs, f.Safe)
    (henc : structHasConvert fs = true → ∀ s v r, (structC cfg h fs).dec s = .ok (v, r) →
      (structC cfg h fs).enc v ≠ .panic) :
    (walkStruct cfg h fs).NoPanic := by
  intro s
  unfold walkStruct
  rw [Rd.bind_run]
  cases hr : readU16 cfg s with
  | err e => simp
  | panic => exact absurd hr (readU16_noPanic cfg s)
  | ok p =>
  obtain ⟨r, t⟩ := p
  show Rd.run _ t ≠ _
  split
  · simp
  split
  · rename_i hcv
    have hcv := (Bool.and_eq_true _ _ ▸ hcv).1
    rw [Rd.bind_run]
    cases hv : afterHeader h (fun e => deserializeStructBody e (latest h) fs) r t with
    | err e => simp
    | panic => exact absurd hv (afterHeader_noPanic h
        (fun e he => deserializeStructBody_noPanic e (latest h) fs (hn e he) hs) r t)
    | ok p =>
      obtain ⟨v, t'⟩ := p
      have hdec : (structC cfg h fs).dec s = .ok (v, t') := by
        unfold structC dispatchRevision
        simp only
        rw [Rd.bind_of_ok hr]
        exact hv
      refine Rd.NoPanic.bind (Rd.NoPanic.lift (henc hcv s v t' hdec)) (fun buf => ?_) t'
      refine Rd.NoPanic.bind (Rd.NoPanic.lift ?_) fun _ => Rd.NoPanic.pure _
      have := readU16_noPanic cfg buf
      cases hb : readU16 cfg buf with
      | ok p => simp
      | err e => simp
      | panic => exact absurd hb this
  · split
    · exact (Rd.NoPanic.ite (Rd.NoPanic.bind readVarlenLen_noPanic fun _ =>
        Rd.NoPanic.bind (readBorrowed_noPanic _) fun _ => Rd.NoPanic.pure _)
        (Rd.NoPanic.bind readVarlenLen_noPanic fun _ => Rd.NoPanic.pure _)) t
    · exact Rd.NoPanic.pure _ t

theorem walkStruct_good (cfg : Cfg) (h : List Entry) (fs : List (FieldDecl V))
    (hi : ∀ e ∈ h, e.optimised = true → e.indexedStruct = false) :
    (walkStruct cfg h fs).Yields StructRepr.Good := by
  intro s w r hw
  unfold walkStruct at hw
  obtain ⟨rev, t, _, hw⟩ := Rd.bind_ok.1 hw
  split at hw
  · cases hw
  split at hw
  · obtain ⟨v, t1, _, hw⟩ := Rd.bind_ok.1 hw
    obtain ⟨buf, t2, _, hw⟩ := Rd.bind_ok.1 hw
    obtain ⟨rest, t3, _, hw⟩ := Rd.bind_ok.1 hw
    cases hw
    show _ ≤ _
    omega
  · split at hw
    · rename_i e he
      have ho := List.find?_some he
      rw [Bool.and_eq_true] at ho
      rw [hi e (List.mem_of_find?_eq_some he) ho.1] at hw
      obtain ⟨v, t1, _, hw⟩ := Rd.bind_ok.1 hw
      cases hw
      trivial
    · cases hw
      trivial

/-- Walking arbitrary bytes as a derived struct, and then decoding or skipping fields in any order
any number of times, never panics, unless the code of a field type or a function the user supplied
does, or the converted value cannot be serialised again without a panic.

Missing from the full property: structs with an indexed revision (`C60_indexed_false`). -/
theorem C60_struct_partial (cfg : Cfg) (h : List Entry) (fs : List (FieldDecl V))
    (hn : ∀ e ∈ h, DistinctNames fs e.revision (latest h)) (hs : ∀ f ∈ fs, f.Safe)
    (henc : structHasConvert fs = true → ∀ s v r, (structC cfg h fs).dec s = .ok (v, r) →
      (structC cfg h fs).enc v ≠ .panic)
    (hi : ∀ e ∈ h, e.optimised = true → e.indexedStruct = false) (calls : List FieldCall) (s : Bytes) :
    (do
      let w ← walkStruct cfg h fs
      runCalls (aliveFields fs (latest h)) calls w) s ≠ .panic :=
  Rd.NoPanic.bind' (P := StructRepr.Good) (walkStruct_noPanic cfg h fs hn hs henc) (walkStruct_good cfg h fs hi)
    (fun w hw => runCalls_noPanic (fun f hf => hs f (List.mem_filter.1 hf).1) calls w hw) s

/-- The theorems applied to the demonstration, without the table of offsets. -/
theorem safeFields_distinct (o : Bool) : ∀ e ∈ [(⟨1, false, false⟩ : Entry), ⟨2, true, o⟩],
    DistinctNames safeFields e.revision 2 := by
  intro e he
  simp only [List.mem_cons, List.not_mem_nil, or_false] at he
  rcases he with rfl | rfl <;> simp [safeFields, DistinctNames, tyField, FieldDecl.existsAt, existsAt]

example (calls : List FieldCall) (s : Bytes) :
    (do
      let w ← walkStruct .default [⟨1, false, false⟩, ⟨2, true, false⟩] safeFields
      runCalls (aliveFields safeFields 2) calls w) s ≠ .panic :=
  C60_struct_partial .default [⟨1, false, false⟩, ⟨2, true, false⟩] safeFields (safeFields_distinct false)
    safeFields_safe (fun h => by cases h) (by decide) calls s

/-- The same for taking the bytes of a field, here with any revisions. -/
theorem C60_field_bytes (cfg : Cfg) (h : List Entry) (fs : List (FieldDecl V))
    (hn : ∀ e ∈ h, DistinctNames fs e.revision (latest h)) (hs : ∀ f ∈ fs, f.Safe)
    (henc : structHasConvert fs = true → ∀ s v r, (structC cfg h fs).dec s = .ok (v, r) →
      (structC cfg h fs).enc v ≠ .panic)
    (i : Nat) (f : FieldDecl V) (hf : (aliveFields fs (latest h))[i]? = some f)
    (hfe : ∀ s v r, f.plain.dec s = .ok (v, r) → f.plain.enc v ≠ .panic) (s : Bytes) :
    (do
      let w ← walkStruct cfg h fs
      w.intoFieldBytes i f) s ≠ .panic := by
  have hsf := hs f (List.mem_filter.1 (List.mem_of_getElem? hf)).1
  refine Rd.NoPanic.bind' (P := fun w => match w with | .converted b c => c ≤ b.length | _ => True)
    (walkStruct_noPanic cfg h fs hn hs henc) ?_ ?_ s
  · intro s w r hw
    unfold walkStruct at hw
    obtain ⟨rev, t, _, hw⟩ := Rd.bind_ok.1 hw
    split at hw
    · cases hw
    split at hw
    · obtain ⟨v, t1, _, hw⟩ := Rd.bind_ok.1 hw
      obtain ⟨buf, t2, _, hw⟩ := Rd.bind_ok.1 hw
      obtain ⟨rest, t3, _, hw⟩ := Rd.bind_ok.1 hw
      cases hw
      show _ ≤ _
      omega
    · split at hw
      · split at hw
        · obtain ⟨v, t1, _, hw⟩ := Rd.bind_ok.1 hw
          obtain ⟨v, t1, _, hw⟩ := Rd.bind_ok.1 hw
          cases hw
          trivial
        · obtain ⟨v, t1, _, hw⟩ := Rd.bind_ok.1 hw
          cases hw
          trivial
      · cases hw
        trivial
  · intro w hw
    cases w with
    | wire rev =>
      exact Rd.NoPanic.ite (consumed_noPanic hsf.optimisedC.skip) (Rd.NoPanic.fail _)
    | indexed b n => exact Rd.NoPanic.lift (checkedFieldSlice_noPanic b n i)
    | converted b c =>
      refine Rd.NoPanic.bind' (P := fun p => f.plain.enc p.1 ≠ .panic)
        (Rd.NoPanic.lift (atCursor_noPanic hsf.plain.dec hw)) ?_ fun p hp => Rd.NoPanic.lift hp
      intro s p r hp
      have hp := (lift_run_ok.1 hp).1
      unfold StructRepr.atCursor at hp
      obtain ⟨sl, _, hp⟩ := Res.bind_eq_ok.1 hp
      cases hm : f.plain.dec sl with
      | ok q => rw [hm] at hp; cases hp; exact hfe _ _ _ hm
      | err e => rw [hm] at hp; cases hp
      | panic => rw [hm] at hp; cases hp

example (s : Bytes) :
    (do
      let w ← walkStruct .default [⟨1, false, false⟩, ⟨2, true, true⟩] safeFields
      w.intoFieldBytes 0 safeFields[0]) s ≠ .panic :=
  C60_field_bytes .default [⟨1, false, false⟩, ⟨2, true, true⟩] safeFields (safeFields_distinct true)
    safeFields_safe (fun h => by cases h) 0 safeFields[0] rfl (fun s v r h => by
      obtain ⟨a, r', _, hv⟩ := Rd.bind_ok.1 h
      cases hv
      exact fun h => by cases h) s

/-- A record of an indexed struct whose payload is empty: deserialising it is an error, decoding its
field through the walker a panic. -/
theorem C60_indexed_false :
    ∃ (h : List Entry) (fs : List (FieldDecl DV)) (s : Bytes),
      ValidHistory h ∧ (∃ e, (structC .default h fs).dec s = .err e) ∧
      walkAndDecode .default h fs s = .panic :=
  ⟨[⟨1, true, true⟩], [u32Field .default "a" {}], [1, 0, 0, 0, 0], ⟨by decide, by decide, by decide⟩, ⟨_, rfl⟩, rfl⟩

/-- An indexed record whose only offset points past the end. -/
theorem C60_bad_offset_false :
    ∃ (h : List Entry) (fs : List (FieldDecl DV)) (s : Bytes),
      ValidHistory h ∧ walkAndDecode .default h fs s = .panic :=
  ⟨[⟨1, true, true⟩], [u32Field .default "a" {}], [1, 5, 0, 0, 0, 6, 0, 0, 0, 7],
    ⟨by decide, by decide, by decide⟩, rfl⟩

example : structHasConvert safeFields = false ∧
    (∀ e ∈ [(⟨1, false, false⟩ : Entry), ⟨2, true, false⟩], e.optimised = true → e.indexedStruct = false) :=
  ⟨rfl, by decide⟩

/-! ### Enums -/

/-- A representation whose methods cannot slice out of range. -/
def EnumRepr.Good : EnumRepr → Prop
  | .converted bytes cursor _ => cursor ≤ bytes.length
  | _ => True

theorem walkOptimisedEnum_noPanic (vs : List (VariantDecl V)) (r : Nat) : (walkOptimisedEnum vs r).NoPanic := by
  refine Rd.NoPanic.bind readOptimisedTag_noPanic fun p => ?_
  split
  split
  · exact Rd.NoPanic.fail _
  · split
    · exact Rd.NoPanic.fail _
    · refine Rd.NoPanic.bind ?_ fun _ => Rd.NoPanic.pure _
      split
      · exact Rd.NoPanic.pure _
      · exact readBorrowed_noPanic _
      · exact Rd.NoPanic.bind readVarlenLen_noPanic fun _ => readBorrowed_noPanic _

/-- Walking arbitrary bytes as a derived enum never panics, under the same conditions. -/
theorem C60_enum_walk (cfg : Cfg) (h : List Entry) (vs : List (VariantDecl V))
    (hn : ∀ e ∈ h, ∀ v ∈ vs, DistinctNames v.fields e.revision (latest h))
    (hs : ∀ v ∈ vs, v.Safe (latest h))
    (henc : enumHasConvert vs = true → ∀ s v r, (enumC cfg h vs).dec s = .ok (v, r) →
      (enumC cfg h vs).enc v ≠ .panic) (s : Bytes) :
    walkEnum cfg h vs s ≠ .panic := by
  unfold walkEnum
  rw [Rd.bind_run]
  cases hr : readU16 cfg s with
  | err e => simp
  | panic => exact absurd hr (readU16_noPanic cfg s)
  | ok p =>
  obtain ⟨r, t⟩ := p
  show Rd.run _ t ≠ _
  split
  · simp
  split
  · rename_i hcv
    have hcv := (Bool.and_eq_true _ _ ▸ hcv).1
    rw [Rd.bind_run]
    cases hv : afterHeader h (fun e => deserializeEnumBody cfg e (latest h) vs) r t with
    | err e => simp
    | panic => exact absurd hv (afterHeader_noPanic h
        (fun e he => deserializeEnumBody_noPanic cfg e (latest h) vs (hn e he) hs) r t)
    | ok p =>
      obtain ⟨v, t'⟩ := p
      have hdec : (enumC cfg h vs).dec s = .ok (v, t') := by
        unfold enumC dispatchRevision
        simp only
        rw [Rd.bind_of_ok hr]
        exact hv
      refine Rd.NoPanic.bind (Rd.NoPanic.lift (henc hcv s v t' hdec)) (fun buf => ?_) t'
      refine Rd.NoPanic.bind (Rd.NoPanic.lift ?_) fun rest => Rd.NoPanic.bind (Rd.NoPanic.lift
        (atCursor_noPanic (readU32_noPanic cfg) (by omega))) fun _ => Rd.NoPanic.pure _
      have := readU16_noPanic cfg buf
      cases hb : readU16 cfg buf with
      | ok p => simp
      | err e => simp
      | panic => exact absurd hb this
  · split
    · exact walkOptimisedEnum_noPanic vs r t
    · exact Rd.NoPanic.bind (readU32_noPanic cfg) (fun _ => Rd.NoPanic.pure _) t

theorem walkEnum_good (cfg : Cfg) (h : List Entry) (vs : List (VariantDecl V)) :
    (walkEnum cfg h vs).Yields EnumRepr.Good := by
  intro s w r hw
  unfold walkEnum at hw
  obtain ⟨rev, t, _, hw⟩ := Rd.bind_ok.1 hw
  split at hw
  · cases hw
  split at hw
  · obtain ⟨v, t1, _, hw⟩ := Rd.bind_ok.1 hw
    obtain ⟨buf, t2, _, hw⟩ := Rd.bind_ok.1 hw
    obtain ⟨rest, t3, _, hw⟩ := Rd.bind_ok.1 hw
    obtain ⟨⟨d, c⟩, t4, hc, hw⟩ := Rd.bind_ok.1 hw
    cases hw
    exact atCursor_good (lift_run_ok.1 hc).1
  · split at hw
    · unfold walkOptimisedEnum at hw
      obtain ⟨⟨tag, sc⟩, t1, _, hw⟩ := Rd.bind_ok.1 hw
      simp only at hw
      split at hw
      · cases hw
      · split at hw
        · cases hw
        · obtain ⟨payload, t1, _, hw⟩ := Rd.bind_ok.1 hw
          cases hw
          trivial
    · obtain ⟨d, t1, _, hw⟩ := Rd.bind_ok.1 hw
      cases hw
      trivial

/-- Decoding or viewing a variant through the walker of arbitrary bytes never panics, under the same
conditions. -/
theorem C60_enum_methods (cfg : Cfg) (h : List Entry) (vs : List (VariantDecl V))
    (hn : ∀ e ∈ h, ∀ v ∈ vs, DistinctNames v.fields e.revision (latest h))
    (hs : ∀ v ∈ vs, v.Safe (latest h))
    (henc : enumHasConvert vs = true → ∀ s v r, (enumC cfg h vs).dec s = .ok (v, r) →
      (enumC cfg h vs).enc v ≠ .panic)
    (v : VariantDecl V) (hv : v ∈ vs) (f : FieldDecl V) (hf : f ∈ v.fields)
    (hfe : ∀ s x r, f.plain.dec s = .ok (x, r) → f.plain.enc x ≠ .panic) (s : Bytes) :
    (do let w ← walkEnum cfg h vs; w.decodeVariant vs (latest h) v f) s ≠ .panic ∧
    (do let w ← walkEnum cfg h vs; w.intoUnit vs (latest h) v) s ≠ .panic ∧
    (do let w ← walkEnum cfg h vs; w.viewSingle vs (latest h) v f) s ≠ .panic ∧
    (do let w ← walkEnum cfg h vs; w.viewMulti vs (latest h) v) s ≠ .panic := by
  have hsf := (hs v hv).fields f hf
  have hw : (walkEnum cfg h vs).NoPanic := C60_enum_walk cfg h vs hn hs henc
  have hg := walkEnum_good cfg h vs
  refine ⟨Rd.NoPanic.bind' hw hg (fun w hg => ?_) s, Rd.NoPanic.bind hw (fun w => ?_) s,
    Rd.NoPanic.bind hw (fun w => ?_) s, Rd.NoPanic.bind hw (fun w => ?_) s⟩
  · refine Rd.NoPanic.ite ?_ (Rd.NoPanic.fail _)
    cases w with
    | wire r d => exact hsf.plain.dec
    | borrowed b d => exact Rd.NoPanic.lift (hsf.plain.dec.within b)
    | converted b c d =>
      refine Rd.NoPanic.bind (Rd.NoPanic.lift ?_) fun x => Rd.NoPanic.lift (hsf.plain.dec.within x)
      rw [sliceR_ok hg (Nat.le_refl _)]
      simp
  · exact Rd.NoPanic.ite (Rd.NoPanic.pure _) (Rd.NoPanic.fail _)
  · refine Rd.NoPanic.ite ?_ (Rd.NoPanic.fail _)
    cases w with
    | wire r d =>
      exact Rd.NoPanic.bind' (P := fun x => f.plain.enc x ≠ .panic) hsf.plain.dec
        (fun s x r h => hfe s x r h) fun x hx => Rd.NoPanic.lift hx
    | borrowed b d => exact Rd.NoPanic.pure _
    | converted b c d => exact Rd.NoPanic.pure _
  · refine Rd.NoPanic.ite ?_ (Rd.NoPanic.fail _)
    cases w with
    | wire r d => exact Rd.NoPanic.fail _
    | borrowed b d => exact Rd.NoPanic.pure _
    | converted b c d => exact Rd.NoPanic.pure _

/-- The enum of C68, with a field of its variant `A`. -/
def safeVariants : List (VariantDecl (Dyn demoEnv.unlimited)) :=
  [⟨"A", { size := some .varlen }, safeFields.take 1, fun _ _ => .panic⟩,
   ⟨"B", {}, safeFields, fun fields _ => .ok ⟨"A", fields⟩⟩]

theorem safeVariants_safe : ∀ v ∈ safeVariants, v.Safe 2 := by
  intro v hv
  simp only [safeVariants, List.mem_cons, List.not_mem_nil, or_false] at hv
  rcases hv with rfl | rfl
  · exact ⟨fun f hf => safeFields_safe f (List.mem_of_mem_take hf), fun h => by cases h⟩
  · exact ⟨safeFields_safe, fun _ _ _ _ => by simp⟩

theorem safeVariants_distinct : ∀ e ∈ [(⟨1, false, false⟩ : Entry), ⟨2, true, false⟩], ∀ v ∈ safeVariants,
    DistinctNames v.fields e.revision 2 := by
  simp [safeVariants, safeFields, DistinctNames, tyField, FieldDecl.existsAt, existsAt]

example (s : Bytes) := C60_enum_walk .default [⟨1, false, false⟩, ⟨2, true, false⟩] safeVariants
  safeVariants_distinct safeVariants_safe (fun h => by cases h) s

example (s : Bytes) := C60_enum_methods .default [⟨1, false, false⟩, ⟨2, true, false⟩] safeVariants
  safeVariants_distinct safeVariants_safe (fun h => by cases h) safeVariants[1] (.tail _ (.head _)) safeFields[0]
  (.head _) (fun s v r h => by
      obtain ⟨a, r', _, hv⟩ := Rd.bind_ok.1 h
      cases hv
      exact fun h => by cases h) s

/-! ## C69 Indexed collections on corrupt input -/

/-- Deserialising, skipping and checking arbitrary bytes as an indexed sequence or set never panics,
apart from refused allocations and unless the element type's code does. -/
theorem C69_seq_set {α : Type} (c : Codec α) (hc : c.PanicFree) (cmp : α → α → Ordering) (eq : α → α → Bool) :
    (indexedSeqC (fun _ => true) c).PanicFree ∧ (indexedBTreeSetC (fun _ => true) cmp c).PanicFree ∧
      (indexedHashSetC (fun _ => true) eq c).PanicFree :=
  ⟨indexedSeqC_panicFree (fun _ => rfl) hc, indexedBTreeSetC_panicFree (fun _ => rfl) cmp hc,
    indexedHashSetC_panicFree (fun _ => rfl) eq hc⟩

example := C69_seq_set (intC .default .u16) (intC_panicFree _ _) compare (fun a b => a == b)

/-- Skipping arbitrary bytes as an indexed map never panics. -/
theorem C69_map_skip {κ ν : Type} (k : Codec κ) (v : Codec ν) (hk : k.PanicFree) (hv : v.PanicFree)
    (s : Bytes) : skipIndexedMap k.skip v.skip s ≠ .panic :=
  skipIndexedMap_noPanic hk.skip hv.skip s

example := C69_map_skip (intC .default .u16) boolC (intC_panicFree _ _) boolC_panicFree

/-- Deserialising arbitrary bytes as an indexed map panics for one declared length only, `2⁶¹ - 1`.

Missing from the full property: that length (`C69_map_overflow_false`). -/
theorem C69_map_partial {κ ν : Type} (k : Rd κ) (v : Rd ν) (hk : k.NoPanic) (hv : v.NoPanic)
    (build : List (κ × ν) → List (κ × ν)) (s : Bytes) :
    readIndexedMap (fun _ => true) (fun _ => true) (fun _ => true) k v build s = .panic ↔
      ∃ flags t r, s = flags :: t ∧ flags &&& 1 ≠ 0 ∧ readVarint t = .ok (2 ^ 61 - 1, r) := by
  unfold readIndexedMap
  cases s with
  | nil => simp [Rd.bind_run, Rd.readByte]
  | cons flags t =>
  rw [Rd.bind_of_ok (a := flags) (r := t) rfl, Rd.bind_run]
  have hex : (∃ flags' t' r, flags :: t = flags' :: t' ∧ flags' &&& 1 ≠ 0 ∧
      readVarint t' = .ok (2 ^ 61 - 1, r)) ↔ flags &&& 1 ≠ 0 ∧ ∃ r, readVarint t = .ok (2 ^ 61 - 1, r) := by
    constructor
    · rintro ⟨_, _, r, h, h1, h2⟩; cases h; exact ⟨h1, r, h2⟩
    · rintro ⟨h1, r, h2⟩; exact ⟨_, _, r, rfl, h1, h2⟩
  rw [hex]
  cases hl : readVarint t with
  | err e => simp
  | panic => exact absurd hl (readVarint_noPanic t)
  | ok p =>
  obtain ⟨len, r⟩ := p
  show Rd.run _ r = _ ↔ _
  rw [show Rd.alloc true = pure () from rfl, Rd.pure_bind]
  split
  · rename_i hz
    constructor
    · intro hp
      exact absurd hp (Rd.NoPanic.bind (Rd.NoPanic.readN (Rd.NoPanic.bind hk fun _ =>
        Rd.NoPanic.bind hv fun _ => Rd.NoPanic.pure _) len) (fun _ => Rd.NoPanic.pure _) r)
    · exact fun h => absurd hz h.1
  · rename_i hz
    have key : (∃ r', (.ok (len, r) : Res (Nat × Bytes)) = .ok (2 ^ 61 - 1, r')) ↔ len = 2 ^ 61 - 1 := by
      constructor
      · rintro ⟨r', h⟩; cases h; rfl
      · intro h; exact ⟨r, by rw [h]⟩
    rw [key]
    unfold checkedMul addU
    by_cases h1 : len * 8 < 2 ^ 64
    · rw [if_pos h1, Rd.lift_ok, Rd.pure_bind]
      by_cases h2 : len * 8 + 8 < 2 ^ 64
      · rw [if_pos h2, Rd.lift_ok, Rd.pure_bind]
        constructor
        · intro hp
          exact absurd hp (Rd.NoPanic.bind (Rd.NoPanic.advance _) (fun _ =>
            Rd.NoPanic.bind (Rd.NoPanic.pure ()) fun _ => Rd.NoPanic.bind (Rd.NoPanic.readN hk len) fun _ =>
            Rd.NoPanic.bind (Rd.NoPanic.pure ()) fun _ => Rd.NoPanic.bind (Rd.NoPanic.readN hv len) fun _ =>
            Rd.NoPanic.pure _) r)
        · rintro ⟨-, h⟩; omega
      · rw [if_neg h2]
        constructor
        · intro _; exact ⟨hz, by omega⟩
        · intro _; rfl
    · rw [if_neg h1]
      constructor
      · intro h; cases h
      · rintro ⟨-, h⟩; omega

example := C69_map_partial (intC .default .u16).dec boolC.dec (intC_panicFree _ _).dec boolC_panicFree.dec id

/-- The table size computed from an untrusted length overflows: ten bytes panic (with overflow checks;
without them the reader goes on at the wrong place). -/
theorem C69_map_overflow_false :
    readIndexedMap (fun _ => true) (fun _ => true) (fun _ => true) (intC .default .u8).dec (intC .default .u8).dec
      id [1, 253, 255, 255, 255, 255, 255, 255, 255, 31] = .panic := rfl

end Revision
