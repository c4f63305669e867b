import Verif.Proofs.StructSession
import Verif.Props.DeriveStreamMore
import Verif.Props.Session

/-! # C126: the accessors of a derived struct walker used one after another

`lost` says where a failed read leaves the reader; the theorems hold whatever it is. -/

namespace Revision

variable {V : Type}

section
variable (cfg : Cfg) (h : List Entry) (hh : ValidHistory h) (fs : List (FieldDecl V))
    (hec : EndsConverted fs) (k : Nat) (h1 : 1 ≤ k) (h2 : k ≤ h.length) (hc : NotConverted h fs k)
    (hf : ∀ f ∈ fs, f.existsAt k = true → (f.wire (lastEntry (h.take k))).Faithful)
    (vs : List V) (b t : Bytes)
    (hv : (structC cfg (h.take k) (fieldsAsOf k fs)).valid vs)
    (hb : (structC cfg (h.take k) (fieldsAsOf k fs)).enc vs = .ok b)
    (new : List V) (hm : migrate k h.length fs vs = .ok new)
include hh hec h1 h2 hc hf hv hb hm

/-- C126 for data without field offsets, of any revision: any session in which the fields of the data are
taken in order answers as the value of the current revision (`new`) says.  A field may be decoded, skipped,
viewed, or walked into to its end; fields that the data does not have can be decoded and skipped at any
time, and refuse to be walked; a nested walk refused outright leaves the field where it is.  When no field
is ahead any more, the reader stands behind the record.

Missing from the full property: nested walkers dropped before their end (`C126_dropped_walk_false`), calls
out of order (`C126_order_false`), and legacy data with `fixed`, `specialised` or `indexed_*` fields
(`C57_fixed_false`, `C57_legacy_indexed_false`). -/
theorem C126_stream_partial
    (ho : (lastEntry (h.take k)).optimised = true ∧ (lastEntry (h.take k)).indexedStruct = false ∨
      (lastEntry (h.take k)).optimised = false ∧ ∀ f ∈ fs, f.existsAt k = true → f.Plain) :
    ∃ s, walkStruct cfg h fs (b ++ t) = .ok (.wire k, s) ∧
      ∀ (lost : Bytes → Bytes) (session : List (StructUse V β)) (answers : List (StructAnswer V β)) (left : List Nat),
        (∀ u ∈ session, u.Follows (aliveFields fs h.length)) →
        StructUse.run (aliveFields fs h.length) k new session (storedFields (aliveFields fs h.length) k) =
          some (answers, left) →
        ∃ s', StructState.run lost (aliveFields fs h.length) (session.map StructUse.toCall) ⟨.wire k, s⟩ =
            (answers, ⟨.wire k, s'⟩) ∧ (left = [] → s' = t) := by
  have main : (∀ f ∈ fs, f.existsAt k = true → f.optimisedC.Faithful) ∧
      ∃ s, FieldStream k (aliveFields fs h.length) new s ∧ walkStruct cfg h fs (b ++ t) = .ok (.wire k, s ++ t) := by
    rcases ho with ⟨ho, hi⟩ | ⟨ho, hp⟩
    · refine ⟨fun f hfm ha => ?_, walkStruct_stream cfg h hh fs hec k h1 h2 ho hi hc vs b t hv hb new hm⟩
      have := hf f hfm ha
      simpa [FieldDecl.wire, ho] using this
    · refine ⟨fun f hfm ha => ?_, walkStruct_legacy_stream cfg h hh fs hec k h1 h2 ho hc hp vs b t hv hb new hm⟩
      have := hf f hfm ha
      obtain ⟨p1, p2, p3⟩ := hp f hfm ha
      simpa [FieldDecl.wire, ho, FieldDecl.legacyC, FieldDecl.optimisedC, p1, p2, p3] using this
  obtain ⟨hf', s, hs, hw⟩ := main
  refine ⟨s ++ t, hw, fun lost session answers left hu hr => ?_⟩
  obtain ⟨g1, g2, g3⟩ := hs.ahead (aliveFields fs h.length) new 0 (fun i => by rw [Nat.zero_add])
    (fun i => by rw [Nat.zero_add])
  rw [← List.range_eq_range'] at g1
  obtain ⟨s', q1, q2⟩ := StructUse.run_wire h2 (fun f hfm => (List.mem_filter.1 hfm).2)
    (fun f hfm => hf' f (List.mem_filter.1 hfm).1) (fun i f v => g2 i f v (Nat.zero_le _)) g3 lost t session hu
    (storedFields (aliveFields fs h.length) k) left s answers g1 hr
  refine ⟨s' ++ t, q2, fun hl => ?_⟩
  subst hl
  rw [q1.eq_nil]; rfl

end

section
variable (cfg : Cfg) (h : List Entry) (hh : ValidHistory h) (fs : List (FieldDecl V))
    (k : Nat) (h1 : 1 ≤ k) (h2 : k ≤ h.length)
    (ho : (lastEntry (h.take k)).optimised = true) (hi : (lastEntry (h.take k)).indexedStruct = true)
    (hc : NotConverted h fs k) (hsame : aliveFields fs k = aliveFields fs h.length)
    (hf : ∀ f ∈ aliveFields fs k, (f.wire (lastEntry (h.take k))).Faithful)
    (vs : List V) (b t : Bytes)
    (hv : (structC cfg (h.take k) (fieldsAsOf k fs)).valid vs)
    (hb : (structC cfg (h.take k) (fieldsAsOf k fs)).enc vs = .ok b)
include hh h1 h2 ho hi hc hsame hf hv hb

/-- C126 for data with field offsets: every call in every session is answered from the value alone,
whatever was called before and however it ended.  A field is decoded, skipped or viewed at any time and as
often as wanted, walking into one is always refused, and the reader stands behind the record all along.

Missing from the full property: decoding an `indexed_*` field (`C57_indexed_field_false`), data older than
the last added field (`C57_older_indexed_false`). -/
theorem C126_indexed_partial :
    ∃ w, walkStruct cfg h fs (b ++ t) = .ok (w, t) ∧
      ∀ (lost : Bytes → Bytes) (session : List (StructCall β)) (answers : List (StructAnswer V β)),
        session.map (StructCall.answer (aliveFields fs h.length) vs) = answers.map some →
        StructState.run lost (aliveFields fs h.length) session ⟨w, t⟩ = (answers, ⟨w, t⟩) := by
  obtain ⟨bs, hval, henc, hlt, hw⟩ := walkStruct_indexed cfg h hh fs k h1 h2 ho hi hc vs b t hv hb
  refine ⟨_, hw, fun lost session => ?_⟩
  rw [hsame] at hval henc
  rw [hsame] at hf
  have hl := hval.length_eq
  have hlb := henc.length_eq
  show ∀ answers, _ → StructState.run lost _ session ⟨.indexed _ (aliveFields fs h.length).length, t⟩ =
    (answers, ⟨.indexed _ (aliveFields fs h.length).length, t⟩)
  have hslice : ∀ i (hi : i < bs.length),
      StructRepr.fieldSlice (offsetTable bs ++ bs.flatten) (aliveFields fs h.length).length i = .ok bs[i] := by
    intro i hi
    have := fieldSlice_run bs hlt hi
    rwa [hlb.2] at this
  have one : ∀ (c : StructCall β) a, StructCall.answer (aliveFields fs h.length) vs c = some a →
      StructState.call lost (aliveFields fs h.length) c
          ⟨.indexed (offsetTable bs ++ bs.flatten) (aliveFields fs h.length).length, t⟩ =
        (a, ⟨.indexed (offsetTable bs ++ bs.flatten) (aliveFields fs h.length).length, t⟩) := by
    intro c a hca
    cases c with
    | decode i =>
      simp only [StructCall.answer, StructState.call] at hca ⊢
      cases hfi : (aliveFields fs h.length)[i]? with
      | none => rw [hfi] at hca; cases hca; rfl
      | some f =>
        obtain ⟨hif, hfe⟩ := List.getElem?_eq_some_iff.1 hfi
        have hiv : i < vs.length := by omega
        have hib : i < bs.length := by omega
        rw [hfi, List.getElem?_eq_getElem hiv] at hca
        simp only at hca
        split at hca
        · cases hca
        rename_i hx
        cases hca
        have hff := hf f (List.mem_of_getElem? hfi)
        have e1 := hval.get i hif hiv
        have e2 := henc.get i hif hiv hib
        rw [hfe] at e1 e2
        simp only [FieldDecl.wire, ho, if_true, FieldDecl.optimisedC, if_neg hx] at hff e1 e2
        have e3 := hff.round_trip _ _ e1 e2 []
        rw [List.append_nil] at e3
        simp only [StructState.decode, hslice i hib, Res.ok_bind, Rd.within, e3, StructState.settle]
    | skip i =>
      simp only [StructCall.answer, StructState.call] at hca ⊢
      cases hfi : (aliveFields fs h.length)[i]? with
      | none => rw [hfi] at hca; cases hca; rfl
      | some f => rw [hfi] at hca; cases hca; rfl
    | view i =>
      simp only [StructCall.answer, StructState.call] at hca ⊢
      cases hfi : (aliveFields fs h.length)[i]? with
      | none => rw [hfi] at hca; cases hca; rfl
      | some f =>
        obtain ⟨hif, hfe⟩ := List.getElem?_eq_some_iff.1 hfi
        have hiv : i < vs.length := by omega
        have hib : i < bs.length := by omega
        rw [hfi, List.getElem?_eq_getElem hiv] at hca
        simp only at hca ⊢
        split at hca
        · rename_i hx
          rw [if_pos hx]
          have e2 := henc.get i hif hiv hib
          rw [hfe] at e2
          simp only [FieldDecl.optimisedC, hx, if_true] at e2
          rw [e2] at hca
          cases hca
          simp only [StructState.view, hslice i hib, StructState.settle]
        · rename_i hx
          cases hca
          rw [if_neg hx]
    | walk i opn =>
      simp only [StructCall.answer, StructState.call] at hca ⊢
      cases hfi : (aliveFields fs h.length)[i]? with
      | none => rw [hfi] at hca; cases hca; rfl
      | some f =>
        rw [hfi] at hca
        simp only at hca ⊢
        split at hca
        · rename_i hx
          cases hca
          rw [if_pos hx]
        · rename_i hx
          cases hca
          rw [if_neg hx]; rfl
  induction session with
  | nil =>
    intro answers hs
    cases answers with
    | nil => rfl
    | cons a as => cases hs
  | cons c cs ih =>
    intro answers hs
    cases answers with
    | nil => cases hs
    | cons a as =>
      simp only [List.map_cons, List.cons.injEq] at hs
      simp only [StructState.run]
      rw [one c a hs.1]
      simp only
      rw [ih as hs.2]

end

section
variable (cfg : Cfg) (h : List Entry) (hh : ValidHistory h) (fs : List (FieldDecl V))
    (k : Nat) (h1 : 1 ≤ k) (h2 : k < h.length) (hcv : structHasConvert fs = true)
    (hn : DistinctNames fs k h.length)
    (hf : ∀ f ∈ fs, f.existsAt k = true → (f.wire (lastEntry (h.take k))).Faithful)
    (hx : ∀ f ∈ fs, f.existsAt k = true → f.existsAt h.length = false →
      (lastEntry (h.take k)).optimised = true → f.isIndexed = false)
    (ho : (lastEntry h).optimised = false)
    (hp : ∀ f ∈ fs, f.existsAt h.length = true →
      f.plain.Faithful ∧ f.opts.fixed = false ∧ f.opts.specialised = false)
    (vs : List V) (b t : Bytes)
    (hv : (structC cfg (h.take k) (fieldsAsOf k fs)).valid vs)
    (hb : (structC cfg (h.take k) (fieldsAsOf k fs)).enc vs = .ok b)
    (new : List V) (hm : migrate k h.length fs vs = .ok new) (hvn : (structC cfg h fs).valid new)
    (b' : Bytes) (hbn : (structC cfg h fs).enc new = .ok b')
include hh h1 h2 hcv hn hf hx ho hp hv hb hm hvn hbn

/-- C126 for data that is converted to the current revision first: any session without nested walks in
which the fields of the current revision are taken in order answers as the value converted says, and the
reader stands behind the record all along; a nested walk is refused and changes nothing.

Missing from the full property: calls out of order, and a current revision with the optimised encoding or
fields with `fixed` or `specialised` (`C57_converted_false`). -/
theorem C126_converted_partial :
    ∃ w, walkStruct cfg h fs (b ++ t) = .ok (w, t) ∧
      ∀ (lost : Bytes → Bytes) (session : List (StructUse V β)) (answers : List (StructAnswer V β)) (left : List Nat),
        (∀ u ∈ session, u.NoWalk) →
        StructUse.run (aliveFields fs h.length) h.length new session
          (storedFields (aliveFields fs h.length) h.length) = some (answers, left) →
        ∃ w', StructState.run lost (aliveFields fs h.length) (session.map StructUse.toCall) ⟨w, t⟩ =
            (answers, ⟨w', t⟩) ∧
          ∀ i f (opn : Opening β), (aliveFields fs h.length)[i]? = some f → f.isIndexed = false →
            StructState.call lost (aliveFields fs h.length) (.walk i opn) ⟨w', t⟩ = (.failed .conversion, ⟨w', t⟩) := by
  obtain ⟨p, bs, hvp, hep, hw⟩ := walkStruct_converted cfg h hh fs k h1 h2 hcv hn hf hx ho hp vs b t hv hb new hm hvn b' hbn
  refine ⟨_, hw, fun lost session answers left hu hr => ?_⟩
  have g := hep.ahead (aliveFields fs h.length) new (k := h.length) hvp 0 (fun i => by rw [Nat.zero_add])
    (fun i => by rw [Nat.zero_add]) (fun f hfm => (List.mem_filter.1 hfm).2)
  rw [← List.range_eq_range'] at g
  obtain ⟨p', s', -, -, e⟩ := StructUse.run_converted (fun f hfm => (List.mem_filter.1 hfm).2)
    (fun f hfm => (hp f (List.mem_filter.1 hfm).1 (List.mem_filter.1 hfm).2).1) hep.length_eq.1.symm lost t
    (p ++ bs.flatten) session hu (storedFields (aliveFields fs h.length) h.length) left p bs.flatten answers rfl g hr
  refine ⟨_, e, fun i f opn hfi hni => ?_⟩
  simp only [StructState.call, hfi, hni, Bool.false_eq_true, if_false, StructState.walk]

end

/-- C126: the walker of a bulk-encoded vector is refused before anything is read, so on the walker of a struct
such a call changes nothing (`StructUse.refused`); compare `C125_refused_walk_false` for maps. -/
theorem C126_refused (cfg : Cfg) (lost : Bytes → Bytes) (t : Ty ι) (hb : vecUsesBulkEncoding cfg t = true)
    (use : Walker → Rd β) : (Ty.vec t).opening cfg lost use = fun s => (.err .deserialize, s) := by
  funext s
  simp only [Ty.opening, Ty.walkAt, hb, if_true]

/-! ### Where the full statement fails -/

/-- An `Option<u32>` field. -/
def optField (name : String) : FieldDecl DV :=
  tyField .default demoEnv name {} (.option (.int .u32)) (fun _ => .ok none) (fun _ _ this => .ok this)

/-- C126 fails: the README says that after `walk_<field>` "the caller can keep reading siblings after the
sub-walker is dropped".  Of `{ a: Some(7), b: 9 }`, written and read at one legacy revision, walk into `a`,
drop the walker, and decode `b`: the answer is 7. -/
theorem C126_dropped_walk_false : ∃ (fs : List (FieldDecl DV)) (vs : List DV) (b s : Bytes) (w : StructRepr),
    (structC .default [⟨1, false, false⟩] fs).valid vs ∧ (structC .default [⟨1, false, false⟩] fs).enc vs = .ok b ∧
      vs[1]? = some (DV.u32 9) ∧ walkStruct .default [⟨1, false, false⟩] fs b = .ok (w, s) ∧
      ∀ lost, (StructState.run lost fs
          [.walk 0 ((Ty.option (.int .u32) : Ty Empty).opening .default lost fun _ => pure ()), .decode 1] ⟨w, s⟩).1 =
        [.walked (), .got (DV.u32 7)] :=
  ⟨[optField "a", u32Field .default "b" {}], [⟨.option (.int .u32), some (7 : BitVec 32)⟩, DV.u32 9], [1, 1, 7, 9],
    [1, 7, 9], .wire 1, ⟨⟨_, rfl, trivial⟩, ⟨_, rfl, trivial⟩, rfl⟩, rfl, rfl, rfl, fun _ => rfl⟩

/-- C126 fails: calls out of order are not noticed.  Of `{ a: 7, b: 9 }` decode `b` first: the answer is 7,
and decoding `a` then gives 9.  The same calls are answered correctly when the struct is declared with field
offsets (`C126_indexed_partial`). -/
theorem C126_order_false : ∃ (fs : List (FieldDecl DV)) (vs : List DV) (b s : Bytes) (w : StructRepr),
    (structC .default [⟨1, false, false⟩] fs).valid vs ∧ (structC .default [⟨1, false, false⟩] fs).enc vs = .ok b ∧
      vs = [DV.u32 7, DV.u32 9] ∧ walkStruct .default [⟨1, false, false⟩] fs b = .ok (w, s) ∧
      ∀ lost, (StructState.run (β := Unit) lost fs [.decode 1, .decode 0] ⟨w, s⟩).1 =
        [.got (DV.u32 7), .got (DV.u32 9)] :=
  ⟨[u32Field .default "a" {}, u32Field .default "b" {}], [DV.u32 7, DV.u32 9], [1, 7, 9], [7, 9], .wire 1,
    ⟨⟨_, rfl, trivial⟩, ⟨_, rfl, trivial⟩, rfl⟩, rfl, rfl, rfl, fun _ => rfl⟩

/-- C126 fails: the README names older data of types with a `convert_fn` as the case in which `walk_<field>` is
refused, but it is refused on data of the current revision of a struct without one, if the struct is declared
with field offsets. -/
theorem C126_indexed_walk_false : ∃ (fs : List (FieldDecl DV)) (vs : List DV) (b s : Bytes) (w : StructRepr),
    structHasConvert fs = false ∧ (structC .default [⟨1, true, true⟩] fs).valid vs ∧
      (structC .default [⟨1, true, true⟩] fs).enc vs = .ok b ∧
      walkStruct .default [⟨1, true, true⟩] fs b = .ok (w, s) ∧
      ∀ lost (opn : Opening Unit), StructState.call lost fs (.walk 0 opn) ⟨w, s⟩ = (.failed .conversion, ⟨w, s⟩) :=
  ⟨[u32Field .default "a" {}, u32Field .default "b" {}], [DV.u32 7, DV.u32 9], [1, 10, 0, 0, 0, 8, 0, 0, 0, 9, 0, 0, 0, 7, 9],
    [], .indexed [8, 0, 0, 0, 9, 0, 0, 0, 7, 9] 2, rfl, ⟨⟨_, rfl, trivial⟩, ⟨_, rfl, trivial⟩, rfl⟩, by decide +kernel,
    by decide +kernel, fun _ _ => rfl⟩

/-! ### The hypotheses can be met -/

/-- Walks into the field of a supported type that are used to their end, as in `C125`, are such walks. -/
theorem StructUse.walk_follows [DecidableEq ι] {cfg : Cfg} {E : Env ι} {fs : List (FieldDecl (Dyn E))} {i : Nat}
    {name : String} {opts : FieldOptions} {t : Ty ι} {dflt : Nat → Res (t.denote E.X)}
    {convert : Nat → t.denote E.X → List (Dyn E) → Res (List (Dyn E))} (w : FullWalk (t.codec cfg E) β) (see : Dyn E → β)
    (hs : ∀ a, see ⟨t, a⟩ = w.view a) (hi : fs[i]? = some (tyField cfg E name opts t dflt convert)) :
    (StructUse.walk i w.opn see).Follows fs := by
  intro f hf s v r hd
  rw [hi] at hf
  cases hf
  obtain ⟨a, r1, h1, h2⟩ := Rd.bind_ok.1 hd
  cases h2
  rw [hs]
  exact w.follows s a r h1

/-- Walking into a `u32` and reading it through the walker. -/
def readU32Walk (lost : Bytes → Bytes) : FullWalk ((Ty.int .u32 : Ty Empty).codec .default demoEnv) Nat :=
  .ofWalk lost (.int .u32) (fun _ => do let x ← decInt .default .u32; pure x.toNat) (fun x => BitVec.toNat x)
    fun s a r h => Rd.bind_of_ok (m := decInt .default .u32) h

/-- What it reads. -/
def seeU32 (v : DV) : Nat :=
  match Dyn.proj (.int .u32) v with
  | some x => BitVec.toNat x
  | none => 0

/-- A revision-1 record `{ a: 300 }` read at revision 2, which has `b` in addition: `b` is decoded before and
after `a`, and refuses to be walked; `a` refuses to be walked, is then walked and read. -/
example (t : Bytes) (lost : Bytes → Bytes) : ∃ s s',
    walkStruct .default [⟨1, true, false⟩, ⟨2, true, false⟩] addedFields ([1, 3, 0, 0, 0, 251, 44, 1] ++ t) =
      .ok (.wire 1, s) ∧
    StructState.run lost (aliveFields addedFields 2)
      ([.decode 1, .refused 0 .deserialize, .walk 1 (readU32Walk lost).opn seeU32,
        .walk 0 (readU32Walk lost).opn seeU32, .decode 1, .skip 1, .skip 2].map StructUse.toCall) ⟨.wire 1, s⟩ =
      ([.got (DV.u32 1), .failed .deserialize, .failed .conversion, .walked 300, .got (DV.u32 1), .skipped,
        .uncallable], ⟨.wire 1, s'⟩) ∧ s' = t := by
  obtain ⟨s, hs, h⟩ := C126_stream_partial (β := Nat) .default [⟨1, true, false⟩, ⟨2, true, false⟩]
    ⟨by decide, by decide, by decide⟩ addedFields addedFields_ok.1 1 (by decide) (by decide) (.inl rfl)
    (fun f hf _ => addedFields_faithful f hf _) [DV.u32 300] [1, 3, 0, 0, 0, 251, 44, 1] t ⟨⟨_, rfl, trivial⟩, rfl⟩ rfl
    [DV.u32 300, DV.u32 1] rfl (.inl ⟨rfl, rfl⟩)
  obtain ⟨s', h1, h2⟩ := h lost
    [.decode 1, .refused 0 .deserialize, .walk 1 (readU32Walk lost).opn seeU32,
      .walk 0 (readU32Walk lost).opn seeU32, .decode 1, .skip 1, .skip 2] _ []
    (by
      intro u hu
      simp only [List.mem_cons, List.not_mem_nil, or_false] at hu
      rcases hu with rfl | rfl | rfl | rfl | rfl | rfl | rfl
      · trivial
      · trivial
      · exact StructUse.walk_follows (readU32Walk lost) seeU32 (fun _ => rfl) rfl
      · exact StructUse.walk_follows (readU32Walk lost) seeU32 (fun _ => rfl) rfl
      all_goals trivial) rfl
  exact ⟨s, s', hs, h1, h2 rfl⟩

/-- `{ a: 7, b: 300 }` with field offsets: the fields in any order. -/
example (t : Bytes) (lost : Bytes → Bytes) (opn : Opening Unit) : ∃ w,
    walkStruct .default [⟨1, false, false⟩, ⟨2, true, true⟩] addedFields
      ([2, 12, 0, 0, 0, 8, 0, 0, 0, 9, 0, 0, 0, 7, 251, 44, 1] ++ t) = .ok (w, t) ∧
    StructState.run lost (aliveFields addedFields 2) [.decode 1, .walk 0 opn, .skip 0, .decode 0, .decode 1, .view 0] ⟨w, t⟩ =
      ([.got (DV.u32 300), .failed .conversion, .skipped, .got (DV.u32 7), .got (DV.u32 300), .uncallable], ⟨w, t⟩) := by
  obtain ⟨w, hw, h⟩ := C126_indexed_partial (β := Unit) .default [⟨1, false, false⟩, ⟨2, true, true⟩]
    ⟨by decide, by decide, by decide⟩ addedFields 2 (by decide) (by decide) rfl rfl (.inl rfl) rfl
    (fun f hf => addedFields_faithful f (List.mem_filter.1 hf).1 _)
    [DV.u32 7, DV.u32 300] _ t ⟨⟨_, rfl, trivial⟩, ⟨_, rfl, trivial⟩, rfl⟩ rfl
  exact ⟨w, hw, h lost _ _ rfl⟩

/-- A record of revision 1, converted: the first field is skipped, the `indexed_seq` one viewed. -/
example (t : Bytes) (lost : Bytes → Bytes) : ∃ w w',
    walkStruct .default [⟨1, true, false⟩, ⟨2, false, false⟩] viewedFields ([1, 6, 0, 0, 0, 7, 9, 0, 2, 5, 6] ++ t) =
      .ok (w, t) ∧
    StructState.run (β := Unit) lost (aliveFields viewedFields 2)
        (([.skip 0, .view 0, .view 1] : List (StructUse DV Unit)).map StructUse.toCall) ⟨w, t⟩ =
      ([.skipped, .uncallable, .viewed [0, 2, 5, 6]], ⟨w', t⟩) := by
  obtain ⟨w, hw, h⟩ := C126_converted_partial (β := Unit) .default [⟨1, true, false⟩, ⟨2, false, false⟩]
    ⟨by decide, by decide, by decide⟩
    viewedFields 1 (by decide) (by decide) rfl viewedFields_ok.1 (fun f hf _ => viewedFields_faithful f hf _)
    viewedFields_ok.2.1 rfl viewedFields_ok.2.2 [DV.u32 7, DV.u32 9, DV.u32s [5, 6]] _ t viewed_valid.1 rfl
    [DV.u32 10, DV.u32s [5, 6]] rfl viewed_valid.2 _ rfl
  obtain ⟨w', h1, -⟩ := h lost [.skip 0, .view 0, .view 1] _ []
    (by
      intro u hu
      simp only [List.mem_cons, List.not_mem_nil, or_false] at hu
      rcases hu with rfl | rfl | rfl <;> trivial) rfl
  exact ⟨w, w', hw, h1⟩

/-- A `Vec<u32>` is encoded in bulk. -/
example (lost : Bytes → Bytes) (use : Walker → Rd Unit) :
    (Ty.vec (.int .u32) : Ty Empty).opening .default lost use = fun s => (.err .deserialize, s) :=
  C126_refused .default lost (.int .u32) rfl use

end Revision
