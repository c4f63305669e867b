import Verif.Proofs.Lookup
import Verif.Props.DeriveStreamMore
import Verif.Props.Ints

/-! # C96: looking things up in the collections of a serialised record

The questions (`Query`), the programs that ask them of a view (`Query.ask`) and the right answers
(`Query.Right`) are in `Spec/Lookup`. -/

namespace Revision

variable {ι : Type} {E : Env ι}

/-- C96, any view: over the indexed encoding of a collection of any size, asking for a key, a position
or a member gives what the collection holds.

Missing from the full property: elements of a sequence and values of a map that take no bytes, in a
collection of eight or more (`C96_weightless_false`, `C96_weightless_values_false`). -/
theorem C96_view_partial (cfg : Cfg) (hx : ∀ i, (E.extC i).Faithful) (hcmp : ∀ t, Std.TransCmp (E.cmp t))
    (heq : ∀ t a, E.eq t a a = true) {ty : Ty ι} (q : Query E ty) (val : ty.denote E.X)
    (hv : (indexedOf cfg E ty).valid val) (hq : q.Fair cfg val) (x : Bytes)
    (hb : (indexedOf cfg E ty).enc val = .ok x) : ∃ ans, q.ask cfg x = .ok ans ∧ q.Right val ans := by
  have hf := fun t => Ty.codec_faithful_of (E := E) cfg hx t
  cases q with
  | btreeMap k v key =>
    obtain ⟨h1, -, -, h4, h5, h6⟩ := hv
    exact mapGet_right (hf k) (hf v) val h1 h4 (h6.imp fun h e => by
      have := hcmp k; rw [e, Std.ReflCmp.compare_self (cmp := E.cmp k)] at h; cases h) h5 hq.1.1 hq.1.2 hq.2 hb
  | hashMap k v key =>
    obtain ⟨h1, -, -, -, h4, h5, h6, -⟩ := hv
    exact mapGet_right (hf k) (hf v) val h1 h4 (h6.imp fun h e => by
      rw [e, heq] at h; cases h) h5 hq.1.1 hq.1.2 hq.2 hb
  | vec t i =>
    obtain ⟨h1, -, h3, h4⟩ := hv
    exact ⟨_, seqGet_right (hf t) val h1 h3 h4 i hq hb, rfl⟩
  | vector t i =>
    obtain ⟨h1, -, h3, h4⟩ := hv
    exact ⟨_, seqGet_right (hf t) val h1 h3 h4 i hq hb, rfl⟩
  | btreeSet t a =>
    obtain ⟨h1, -, h3, h4, h5⟩ := hv
    exact setHas_right (hf t) val h1 h3 (h5.imp fun h e => by
      have := hcmp t; rw [e, Std.ReflCmp.compare_self (cmp := E.cmp t)] at h; cases h) h4 hq.1 hq.2 hb
  | hashSet t a =>
    obtain ⟨h1, -, h3, h4, h5, -⟩ := hv
    exact setHas_right (hf t) val h1 h3 (h5.imp fun h e => by
      rw [e, heq] at h; cases h) h4 hq.1 hq.2 hb

theorem dynC_enc_self [DecidableEq ι] {ty : Ty ι} (c : Codec (ty.denote E.X)) (val : ty.denote E.X) :
    (dynC ty c).enc ⟨ty, val⟩ = c.enc val := by
  simp only [dynC, Codec.embed, Dyn.proj, dif_pos]

theorem dynC_valid_self [DecidableEq ι] {ty : Ty ι} {c : Codec (ty.denote E.X)} {val : ty.denote E.X}
    (h : (dynC ty c).valid ⟨ty, val⟩) : c.valid val := by
  obtain ⟨a, ha, hv⟩ := h
  simp only [Dyn.proj, dif_pos, Option.some.injEq] at ha
  rw [ha]; exact hv

/-! ### In records -/

section
variable [DecidableEq ι] (cfg : Cfg) (hx : ∀ i, (E.extC i).Faithful) (hcmp : ∀ t, Std.TransCmp (E.cmp t))
    (heq : ∀ t a, E.eq t a a = true) (h : List Entry) (hh : ValidHistory h) (fs : List (FieldDecl (Dyn E)))
    {ty : Ty ι} (q : Query E ty) (val : ty.denote E.X) (hq : q.Fair cfg val)
    (name : String) (opts : FieldOptions) (dflt : Nat → Res (ty.denote E.X))
    (convert : Nat → ty.denote E.X → List (Dyn E) → Res (List (Dyn E)))
    (hix : (tyField cfg E name opts ty dflt convert).isIndexed = true)
include hx hcmp heq hh hq hix

/-- C96, `indexed_struct` records: without touching the other fields, a question to a collection of
the record is answered as the collection itself would.

Missing from the full property: as for `C96_view_partial`, and records of a revision with other fields
(`C57_older_indexed_false`). -/
theorem C96_indexed_record_partial (k : Nat) (h1 : 1 ≤ k) (h2 : k ≤ h.length)
    (ho : (lastEntry (h.take k)).optimised = true) (hi : (lastEntry (h.take k)).indexedStruct = true)
    (hc : NotConverted h fs k) (hsame : aliveFields fs k = aliveFields fs h.length)
    (vs : List (Dyn E)) (b t : Bytes)
    (hv : (structC cfg (h.take k) (fieldsAsOf k fs)).valid vs)
    (hb : (structC cfg (h.take k) (fieldsAsOf k fs)).enc vs = .ok b)
    (i : Nat) (hfi : (aliveFields fs h.length)[i]? = some (tyField cfg E name opts ty dflt convert))
    (hvi : vs[i]? = some ⟨ty, val⟩) :
    ∃ ans, q.Right val ans ∧
      (do let w ← walkStruct cfg h fs
          let view ← w.viewField i (tyField cfg E name opts ty dflt convert)
          Rd.lift (q.ask cfg view)) (b ++ t) = .ok (ans, t) := by
  obtain ⟨bs, hval, -, -, -⟩ := walkStruct_indexed cfg h hh fs k h1 h2 ho hi hc vs b t hv hb
  obtain ⟨x, hxe, -, hview⟩ := C58_field_bytes_partial cfg h hh fs k h1 h2 ho hi hc hsame vs b t hv hb i _ _ hfi hvi
  rw [hsame] at hval
  obtain ⟨hif, hfe⟩ := List.getElem?_eq_some_iff.1 hfi
  obtain ⟨hiv, hve⟩ := List.getElem?_eq_some_iff.1 hvi
  have hvv := hval.get i hif hiv
  rw [hfe, hve] at hvv
  simp only [FieldDecl.optimisedC, hix, if_true] at hvv hxe
  obtain ⟨ans, ha, hr⟩ := C96_view_partial cfg hx hcmp heq q val (dynC_valid_self hvv) hq x
    ((dynC_enc_self _ _).symm.trans hxe)
  refine ⟨ans, hr, ?_⟩
  rw [← Rd.bind_assoc, Rd.bind_of_ok hview, ha]
  rfl

/-- C96, other optimised records, at the next field after any mixture of decoded and skipped fields; the
data may be of an older revision, in which case the collection is the one the reader would decode.

Missing from the full property: as for `C96_view_partial`, and collections the data does not have
(`C67_view_false`). -/
theorem C96_streamed_record_partial (hec : EndsConverted fs) (k : Nat) (h1 : 1 ≤ k) (h2 : k ≤ h.length)
    (ho : (lastEntry (h.take k)).optimised = true) (hi : (lastEntry (h.take k)).indexedStruct = false)
    (hc : NotConverted h fs k)
    (hf : ∀ f ∈ fs, f.existsAt k = true → (f.wire (lastEntry (h.take k))).Faithful)
    (vs : List (Dyn E)) (b t : Bytes)
    (hv : (structC cfg (h.take k) (fieldsAsOf k fs)).valid vs)
    (hb : (structC cfg (h.take k) (fieldsAsOf k fs)).enc vs = .ok b)
    (new : List (Dyn E)) (hm : migrate k h.length fs vs = .ok new)
    (plan : List Bool)
    (hfi : (aliveFields fs h.length)[plan.length]? = some (tyField cfg E name opts ty dflt convert))
    (hvi : new[plan.length]? = some ⟨ty, val⟩)
    (ha : (tyField cfg E name opts ty dflt convert).existsAt k = true) :
    ∃ ans u, q.Right val ans ∧
      (do let w ← walkStruct cfg h fs
          let (_, w) ← passFields 0 (aliveFields fs h.length) plan w
          let view ← w.viewField plan.length (tyField cfg E name opts ty dflt convert)
          Rd.lift (q.ask cfg view)) (b ++ t) = .ok (ans, u) := by
  obtain ⟨s, hs, hw⟩ := walkStruct_stream cfg h hh fs hec k h1 h2 ho hi hc vs b t hv hb new hm
  obtain ⟨n1, -⟩ := stream_next h2 hs hw (fun f hfm ha => by
    have := hf f hfm ha
    simpa [FieldDecl.wire, ho] using this) plan _ _ hfi hvi
  obtain ⟨x, u, hvv, hxe, hp⟩ := n1 ha
  have hff := hf _ (List.mem_filter.1 (List.mem_of_getElem? hfi)).1 ha
  simp only [FieldDecl.wire, ho, if_true, FieldDecl.optimisedC, hix] at hff hvv hxe
  obtain ⟨ans, has, hr⟩ := C96_view_partial cfg hx hcmp heq q val (dynC_valid_self hvv) hq x
    ((dynC_enc_self _ _).symm.trans hxe)
  refine ⟨ans, u, hr, ?_⟩
  rw [← Rd.bind_assoc, Rd.bind_of_ok hp]
  simp only [StructRepr.viewField]
  rw [Rd.bind_of_ok (consumed_run (hff.skip_after _ _ hvv hxe _)), has]
  rfl

/-- C96, older records that are converted first.

Missing from the full property: as for `C88_converted_field_partial`. -/
theorem C96_converted_record_partial (k : Nat) (h1 : 1 ≤ k) (h2 : k < h.length) (hcv : structHasConvert fs = true)
    (hn : DistinctNames fs k h.length)
    (hf : ∀ f ∈ fs, f.existsAt k = true → (f.wire (lastEntry (h.take k))).Faithful)
    (hrm : ∀ f ∈ fs, f.existsAt k = true → f.existsAt h.length = false →
      (lastEntry (h.take k)).optimised = true → f.isIndexed = false)
    (ho : (lastEntry h).optimised = false)
    (hp : ∀ f ∈ fs, f.existsAt h.length = true →
      f.plain.Faithful ∧ f.opts.fixed = false ∧ f.opts.specialised = false)
    (vs : List (Dyn E)) (b t : Bytes)
    (hv : (structC cfg (h.take k) (fieldsAsOf k fs)).valid vs)
    (hb : (structC cfg (h.take k) (fieldsAsOf k fs)).enc vs = .ok b)
    (new : List (Dyn E)) (hm : migrate k h.length fs vs = .ok new) (hvn : (structC cfg h fs).valid new)
    (b' : Bytes) (hbn : (structC cfg h fs).enc new = .ok b') (plan : List Bool)
    (hfi : (aliveFields fs h.length)[plan.length]? = some (tyField cfg E name opts ty dflt convert))
    (hvi : new[plan.length]? = some ⟨ty, val⟩)
    (hvx : (indexedOf cfg E ty).valid val) (x : Bytes) (hxe : (indexedOf cfg E ty).enc val = .ok x) :
    ∃ ans, q.Right val ans ∧
      (do let w ← walkStruct cfg h fs
          let (_, w) ← passFields 0 (aliveFields fs h.length) plan w
          let view ← w.viewField plan.length (tyField cfg E name opts ty dflt convert)
          Rd.lift (q.ask cfg view)) (b ++ t) = .ok (ans, t) := by
  obtain ⟨-, hview, -⟩ := C88_converted_field_partial cfg h hh fs k h1 h2 hcv hn hf hrm ho hp vs b t hv hb new hm hvn b'
    hbn plan _ _ hfi hvi (pure ())
  obtain ⟨ans, has, hr⟩ := C96_view_partial cfg hx hcmp heq q val hvx hq x hxe
  refine ⟨ans, hr, ?_⟩
  have hview := hview x ((dynC_enc_self _ _).trans hxe)
  have := Rd.bind_of_ok (f := fun view => Rd.lift (q.ask cfg view)) hview
  rw [has] at this
  simp only [Rd.bind_assoc] at this
  exact this

end

/-! ### Where it fails -/

/-- Eight or more elements that take no bytes: the writer gives them equal offsets, which the walker of
the view refuses.  The record itself is valid and is read back. -/
theorem C96_weightless_false :
    ∃ (fs : List (FieldDecl DV)) (f : FieldDecl DV) (vs : List DV) (b view : Bytes),
      fs = [f] ∧ f.opts = { indexedSeq := true } ∧
      (structC .default [⟨1, true, true⟩] fs).enc vs = .ok b ∧
      (structC .default [⟨1, true, true⟩] fs).dec b = .ok (vs, []) ∧
      (do let w ← walkStruct .default [⟨1, true, true⟩] fs
          w.viewField 0 f) b = .ok (view, []) ∧
      IndexedSeqWalker.fromPayload view = .err .offsetsNonMonotonic :=
  ⟨_, tyField .default demoEnv "units" { indexedSeq := true } (.vec .unit) (fun _ => .ok []) (fun _ _ this => .ok this),
    [⟨.vec .unit, List.replicate 8 ()⟩], _, _, rfl, rfl, rfl, rfl, rfl, rfl⟩

/-- The same for a map whose values take no bytes. -/
theorem C96_weightless_values_false :
    ∃ (m : List (BitVec 8 × Unit)) (b : Bytes),
      (indexedBTreeMapC (demoEnv.cap (.int .u8)) (demoEnv.cap .unit) (demoEnv.cmp (.int .u8)) (intC .default .u8) unitC).valid m ∧
      serializeIndexedEntries (intC .default .u8).enc unitC.enc m = .ok b ∧
      mapGet (intC .default .u8) unitC 1 b = .err .offsetsNonMonotonic := by
  have e : encEach (encPair (intC .default .u8).enc unitC.enc) ((List.range 8).map fun i => (BitVec.ofNat 8 i, ())) =
    .ok ((List.range 8).map fun i => ([UInt8.ofNat i], [])) := by decide +kernel
  have hb : serializeIndexedEntries (intC .default .u8).enc unitC.enc ((List.range 8).map fun i => (BitVec.ofNat 8 i, ())) =
      writeMapPairs ((List.range 8).map fun i => ([UInt8.ofNat i], [])) := by
    unfold serializeIndexedEntries
    rw [e, Res.ok_bind, List.mergeSort_of_pairwise (by decide)]
  refine ⟨(List.range 8).map fun i => (BitVec.ofNat 8 i, ()), _, ⟨by decide, by decide, by decide, fun _ _ => ⟨trivial, trivial⟩, ?_, ?_⟩, hb.trans rfl, rfl⟩
  · intro x _
    refine ⟨fun b h => ?_, fun b h => ?_⟩
    · rw [← Res.ok.inj h]; show (1 : Nat) < 2 ^ 32; decide
    · rw [← Res.ok.inj h]; show (0 : Nat) < 2 ^ 32; decide
  · unfold StrictAsc; decide +kernel

/-! ### The hypotheses can be met -/

theorem demoEq_refl (t : Ty Empty) (a : t.denote demoEnv.X) : demoEnv.eq t a a = true := by
  cases t <;> first | rfl | exact BEq.rfl

/-- A map of nine entries: a key it has and one it has not. -/
def lookupMap : List (BitVec 8 × BitVec 8) := (List.range 9).map fun i => (BitVec.ofNat 8 (i + 1), BitVec.ofNat 8 (10 * i))

example : ∃ x, (indexedOf .default demoEnv (.btreeMap (.int .u8) (.int .u8))).enc lookupMap = .ok x ∧
    Query.ask .default (.btreeMap (.int .u8) (.int .u8) (4 : BitVec 8) : Query demoEnv _) x = .ok (some (30 : BitVec 8)) ∧
    Query.ask .default (.btreeMap (.int .u8) (.int .u8) (40 : BitVec 8) : Query demoEnv _) x = .ok none := by
  have e : encEach (encPair (intC .default .u8).enc (intC .default .u8).enc) lookupMap =
    .ok ((List.range 9).map fun i => ([UInt8.ofNat (i + 1)], [UInt8.ofNat (10 * i)])) := by decide +kernel
  have hb : serializeIndexedEntries (intC .default .u8).enc (intC .default .u8).enc lookupMap =
      writeMapPairs ((List.range 9).map fun i => ([UInt8.ofNat (i + 1)], [UInt8.ofNat (10 * i)])) := by
    unfold serializeIndexedEntries
    rw [e, Res.ok_bind, List.mergeSort_of_pairwise (by decide)]
  obtain ⟨x, hx⟩ : ∃ x, writeMapPairs ((List.range 9).map fun i => ([UInt8.ofNat (i + 1)], [UInt8.ofNat (10 * i)])) = .ok x :=
    ⟨_, rfl⟩
  have hv : (indexedOf .default demoEnv (.btreeMap (.int .u8) (.int .u8))).valid lookupMap := by
    have h : ∀ (x : BitVec 8) b, (intC .default .u8).enc x = .ok b → b.length < 2 ^ 32 := by
      intro x b h; rw [← Res.ok.inj h]; show (1 : Nat) < 2 ^ 32; decide
    exact ⟨by decide, by decide, by decide, fun _ _ => ⟨trivial, trivial⟩, fun e _ => ⟨h e.1, h e.2⟩, by
      show StrictAsc (compareOn (IntTy.value .u8)) (lookupMap.map Prod.fst)
      unfold StrictAsc; decide +kernel⟩
  have hne : ∀ x : BitVec 8, (intC .default .u8).enc x ≠ .ok [] := by
    intro x h
    exact absurd (Res.ok.inj h) (List.cons_ne_nil _ _)
  have hq : ∀ a : BitVec 8, ∃ ans, Query.ask .default (.btreeMap (.int .u8) (.int .u8) a : Query demoEnv _) x = .ok ans ∧
      ∀ val, ans = some val ↔ (a, val) ∈ lookupMap := fun a =>
    C96_view_partial .default (fun e => nomatch e) demoEnv_lawful.trans demoEq_refl (.btreeMap (.int .u8) (.int .u8) a)
      lookupMap hv ⟨⟨trivial, _, rfl⟩, fun _ e _ => hne e.2⟩ x (hb.trans hx)
  obtain ⟨a1, h1, r1⟩ := hq 4
  obtain ⟨a2, h2, r2⟩ := hq 40
  refine ⟨x, hb.trans hx, ?_, ?_⟩
  · rw [h1, (r1 30).2 (by decide)]
  · rw [h2]
    cases a2 with
    | none => rfl
    | some val =>
      have := (r2 val).1 rfl
      have hk : (40 : BitVec 8) ∈ lookupMap.map Prod.fst := List.mem_map.2 ⟨_, this, rfl⟩
      exact absurd hk (by decide)

/-- `{ id: 7, list: [0, 300, 600, …] }`, nine numbers, `indexed_struct`: the element at position 4. -/
def lookupFields : List (FieldDecl DV) := [u32Field .default "id" {}, u32sField .default "list" { indexedSeq := true }]

def lookupList : List Nat := (List.range 9).map (300 * ·)

example : ∃ b, (structC .default [⟨1, true, true⟩] lookupFields).enc [DV.u32 7, DV.u32s lookupList] = .ok b ∧
    (do let w ← walkStruct .default [⟨1, true, true⟩] lookupFields
        let view ← w.viewField 1 (u32sField .default "list" { indexedSeq := true })
        Rd.lift (Query.ask .default (.vec (.int .u32) 4 : Query demoEnv _) view)) (b ++ [99]) =
      .ok (some (1200 : BitVec 32), [99]) := ⟨_, rfl, rfl⟩

/-- The hypotheses of `C96_indexed_record_partial` hold of it. -/
example (i : Nat) (t b : Bytes) (hb : (structC .default [⟨1, true, true⟩] lookupFields).enc [DV.u32 7, DV.u32s lookupList] = .ok b) :
    (do let w ← walkStruct .default [⟨1, true, true⟩] lookupFields
        let view ← w.viewField 1 (u32sField .default "list" { indexedSeq := true })
        Rd.lift (Query.ask .default (.vec (.int .u32) i : Query demoEnv _) view)) (b ++ t) =
      .ok ((lookupList.map (BitVec.ofNat 32))[i]?, t) := by
  have hsz : ∀ (a : BitVec 32) b, (intC .default .u32).enc a = .ok b → 1 ≤ b.length ∧ b.length < 2 ^ 32 := by
    intro a b hb
    rw [C03_exact_size .default rfl .u32 (by simp [IntTy.IsVar]) a b hb]
    unfold varintSize
    split <;> (repeat' split) <;> omega
  have hsm : SmallEach (intC .default .u32).enc (lookupList.map (BitVec.ofNat 32)) := fun a _ b hb => (hsz a b hb).2
  have hne : ∀ a : BitVec 32, (intC .default .u32).enc a ≠ .ok [] := fun a h => absurd (hsz a _ h).1 (by decide)
  obtain ⟨ans, hr, ha⟩ := C96_indexed_record_partial .default (fun e => nomatch e) demoEnv_lawful.trans demoEq_refl
    [⟨1, true, true⟩] ⟨by decide, by decide, by decide⟩ lookupFields (.vec (.int .u32) i) (lookupList.map (BitVec.ofNat 32))
    (fun _ a _ => hne a) "list" { indexedSeq := true } _ _ rfl 1 (by decide) (by decide) rfl rfl (.inl rfl) rfl
    [DV.u32 7, DV.u32s lookupList] b t ⟨⟨_, rfl, trivial⟩, ⟨_, rfl, by decide, rfl, fun _ _ => trivial, hsm⟩, rfl⟩ hb 1 rfl rfl
  exact ha.trans (by rw [show ans = _ from hr])

/-- The hypotheses of the other two hold of the records below. -/
example (i : Nat) (t b : Bytes) (plan : Bool)
    (hb : (structC .default [⟨1, true, false⟩] lookupFields).enc [DV.u32 7, DV.u32s [5, 6]] = .ok b) :
    ∃ u, (do let w ← walkStruct .default [⟨1, true, false⟩] lookupFields
             let (_, w) ← passFields 0 (aliveFields lookupFields 1) [plan] w
             let view ← w.viewField 1 (u32sField .default "list" { indexedSeq := true })
             Rd.lift (Query.ask .default (.vec (.int .u32) i : Query demoEnv _) view)) (b ++ t) =
      .ok (([5, 6].map (BitVec.ofNat 32))[i]?, u) := by
  have hne : ∀ a : BitVec 32, (intC .default .u32).enc a ≠ .ok [] := by
    intro a h
    have h0 := C03_exact_size .default rfl .u32 (by simp [IntTy.IsVar]) a _ h
    unfold varintSize at h0
    simp only [List.length_nil] at h0
    revert h0
    split <;> (repeat' split) <;> omega
  have hec : EndsConverted lookupFields := by simp [EndsConverted, lookupFields, u32Field, u32sField, tyField]
  have hf : ∀ f ∈ lookupFields, ∀ e, (f.wire e).Faithful := by
    intro f hf e
    simp only [lookupFields, List.mem_cons, List.not_mem_nil, or_false] at hf
    rcases hf with rfl | rfl <;>
      exact tyField_wire_faithful .default demoEnv_lawful (fun i => nomatch i) _ _ _ _ _ e
  obtain ⟨ans, u, hr, ha⟩ := C96_streamed_record_partial .default (fun e => nomatch e) demoEnv_lawful.trans demoEq_refl
    [⟨1, true, false⟩] ⟨by decide, by decide, by decide⟩ lookupFields (.vec (.int .u32) i) ([5, 6].map (BitVec.ofNat 32))
    (fun _ a _ => hne a) "list" { indexedSeq := true } _ _ rfl hec 1 (by decide) (by decide) rfl rfl (.inl rfl)
    (fun f h _ => hf f h _) [DV.u32 7, DV.u32s [5, 6]] b t
    ⟨⟨_, rfl, trivial⟩, ⟨_, rfl, viewed_list_valid⟩, rfl⟩ hb [DV.u32 7, DV.u32s [5, 6]] rfl [plan] rfl rfl rfl
  exact ⟨u, ha.trans (by rw [show ans = _ from hr])⟩

example (i : Nat) (t : Bytes) (plan : Bool) :
    (do let w ← walkStruct .default [⟨1, true, false⟩, ⟨2, false, false⟩] viewedFields
        let (_, w) ← passFields 0 (aliveFields viewedFields 2) [plan] w
        let view ← w.viewField 1 (u32sField .default "l" { indexedSeq := true })
        Rd.lift (Query.ask .default (.vec (.int .u32) i : Query demoEnv _) view))
      ([1, 6, 0, 0, 0, 7, 9, 0, 2, 5, 6] ++ t) = .ok (([5, 6].map (BitVec.ofNat 32))[i]?, t) := by
  have hne : ∀ a : BitVec 32, (intC .default .u32).enc a ≠ .ok [] := by
    intro a h
    have h0 := C03_exact_size .default rfl .u32 (by simp [IntTy.IsVar]) a _ h
    unfold varintSize at h0
    simp only [List.length_nil] at h0
    revert h0
    split <;> (repeat' split) <;> omega
  obtain ⟨ans, hr, ha⟩ := C96_converted_record_partial .default (fun e => nomatch e) demoEnv_lawful.trans demoEq_refl
    [⟨1, true, false⟩, ⟨2, false, false⟩] ⟨by decide, by decide, by decide⟩ viewedFields (.vec (.int .u32) i)
    ([5, 6].map (BitVec.ofNat 32)) (fun _ a _ => hne a) "l" { indexedSeq := true } _ _ rfl 1 (by decide) (by decide) rfl
    viewedFields_ok.1 (fun f hf _ => viewedFields_faithful f hf _) viewedFields_ok.2.1 rfl viewedFields_ok.2.2
    [DV.u32 7, DV.u32 9, DV.u32s [5, 6]] _ t viewed_valid.1 rfl [DV.u32 10, DV.u32s [5, 6]] rfl viewed_valid.2 _ rfl
    [plan] rfl rfl viewed_list_valid [0, 2, 5, 6] rfl
  exact ha.trans (by rw [show ans = _ from hr])

/-- An optimised record without index: the list `[5, 6]` has no offset table, and is gone through. -/
example : ∃ b, (structC .default [⟨1, true, false⟩] lookupFields).enc [DV.u32 7, DV.u32s [5, 6]] = .ok b ∧
    (do let w ← walkStruct .default [⟨1, true, false⟩] lookupFields
        let (_, w) ← passFields 0 (aliveFields lookupFields 1) [true] w
        let view ← w.viewField 1 (u32sField .default "list" { indexedSeq := true })
        Rd.lift (Query.ask .default (.vec (.int .u32) 1 : Query demoEnv _) view)) (b ++ [99]) =
      .ok (some (6 : BitVec 32), [99]) := ⟨_, rfl, rfl⟩

/-- Converted data: the record of `viewedFields`. -/
example :
    (do let w ← walkStruct .default [⟨1, true, false⟩, ⟨2, false, false⟩] viewedFields
        let (_, w) ← passFields 0 (aliveFields viewedFields 2) [false] w
        let view ← w.viewField 1 (u32sField .default "l" { indexedSeq := true })
        Rd.lift (Query.ask .default (.vec (.int .u32) 0 : Query demoEnv _) view)) [1, 6, 0, 0, 0, 7, 9, 0, 2, 5, 6, 99] =
      .ok (some (5 : BitVec 32), [99]) := rfl

end Revision
