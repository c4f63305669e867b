import Verif.Proofs.Derive
import Verif.Proofs.DeriveTy
import Verif.Spec.DeriveDemo
import Verif.Props.Schema
import Verif.Props.Types

/-! # C48–C51, C55: derived structs -/

namespace Revision

variable {V : Type}

/-- The histories the macro accepts, in either syntax, are the ones the theorems below are about. -/
theorem C46_accepted_valid (legacy : Option Nat) (new item h : List Entry)
    (hr : resolveHistory legacy new = .ok item) (hi : itemHistory item [] = .ok h) : ValidHistory h := by
  obtain ⟨hsel, hne, h1, h2⟩ := (C46_item_iff item [] h).1 hi
  have hih : item = h := by
    rcases hsel with ⟨_, hd⟩ | ⟨hd, _⟩
    · exact absurd hd.symm hne
    · exact hd
  subst hih
  have hasc : item.map Entry.revision = List.range' 1 item.length := by
    cases legacy with
    | none =>
      have := C46_history_ascending new item hr
      rw [this.2, this.1.length_eq]
    | some n =>
      rw [C46_legacy_syntax] at hr
      split at hr
      · cases hr
      · split at hr
        · cases hr
        · cases hr
          simp [List.map_map, Entry.legacy, Function.comp_def]
  refine ⟨hne, hasc, ?_⟩
  have hl : latest item = item.length := by
    unfold latest
    rw [← List.getLast?_map, hasc, List.getLast?_range']
    have := List.length_pos_iff.2 hne
    rw [if_neg (by omega)]
    simp
    try omega
  omega

example := C46_accepted_valid (some 3) [] _ _ rfl rfl

example : ValidHistory demoHistory := ⟨by decide, by decide, by decide⟩

theorem demo_list_valid :
    (indexedSeqC (demoEnv.cap (.int .u32)) ((Ty.int .u32).codec .default demoEnv)).valid [BitVec.ofNat 32 5] := by
  refine ⟨by decide, by decide, fun _ _ => trivial, ?_⟩
  intro a ha b hb
  simp only [List.mem_cons, List.not_mem_nil, or_false] at ha
  subst ha
  cases hb
  decide

/-! ## C48 Struct layout on the wire -/

/-- Serialising a struct succeeds iff each of its live fields can be serialised and, in an optimised
encoding, the payload is shorter than 2^32 bytes.  What is written is the current revision followed
by the encodings of exactly the live fields, in declaration order, laid out as `structLayout` says.
-/
theorem C48_layout (cfg : Cfg) (h : List Entry) (hh : ValidHistory h) (fs : List (FieldDecl V))
    (vs : List V) (hl : vs.length = (aliveFields fs h.length).length) (out : Bytes) :
    (structC cfg h fs).enc vs = .ok out ↔
      ∃ bs, Encodes (fun f => f.wire (lastEntry h)) (aliveFields fs h.length) vs bs ∧
        ((lastEntry h).optimised = true → (structPayload (lastEntry h) bs).length < 2 ^ 32) ∧
        out = encU16 cfg h.length ++ structLayout (lastEntry h) bs := by
  have hrev := hh.lastEntry_revision
  unfold structC
  simp only [hh.latest_eq]
  constructor
  · intro hb
    obtain ⟨b, hb', hout⟩ := Res.bind_eq_ok.1 hb
    cases hout
    clear hb
    obtain ⟨bs, hbs⟩ := serializeStructBody_ok (lastEntry h) fs vs b (by rw [hrev]; exact hl) hb'
    rw [serializeStructBody_encodes _ fs vs bs hbs] at hb'
    split at hb'
    · cases hb'
    · rename_i hc
      cases hb'
      rw [hrev] at hbs
      refine ⟨bs, hbs, fun ho => ?_, rfl⟩
      exact Nat.lt_of_not_le fun hle => hc ⟨ho, hle⟩
  · rintro ⟨bs, hbs, hlt, rfl⟩
    rw [← hrev] at hbs
    rw [serializeStructBody_encodes _ fs vs bs hbs,
      if_neg (fun hc => Nat.not_le_of_lt (hlt hc.1) hc.2)]
    rfl

/-- The fields of the demonstration round trip in every encoding. -/
theorem demoFields_faithful : ∀ f ∈ demoFields .default, ∀ e, (f.wire e).Faithful := by
  intro f hf e
  simp only [demoFields, List.mem_cons, List.not_mem_nil, or_false] at hf
  rcases hf with rfl | rfl | rfl | rfl <;>
    exact tyField_wire_faithful .default demoEnv_lawful (fun i => nomatch i) _ _ _ _ _ e

theorem demoFields_distinct : DistinctNames (demoFields .default) 1 3 ∧ DistinctNames (demoFields .default) 2 3 ∧
    DistinctNames (demoFields .default) 3 3 := by
  refine ⟨?_, ?_, ?_⟩ <;>
    simp [DistinctNames, demoFields, u32Field, u32sField, tyField, FieldDecl.existsAt, existsAt]

theorem demoHistory_valid : ValidHistory demoHistory := ⟨by decide, by decide, by decide⟩

/-- The layout theorem applied to the demonstration: three live fields, the removed one absent. -/
example : (structC .default demoHistory (demoFields .default)).enc [DV.u32 7, DV.u32 300, DV.u32s [5]] =
    .ok ([3] ++ structLayout ⟨3, true, true⟩ [[7], [251, 44, 1], [0, 1, 5]]) :=
  (C48_layout .default demoHistory demoHistory_valid (demoFields .default) [DV.u32 7, DV.u32 300, DV.u32s [5]]
    rfl _).2 ⟨_, .cons rfl (.cons rfl (.cons rfl .nil)), fun _ => by decide, rfl⟩

example : (structC .default demoHistory (demoFields .default)).enc [DV.u32 7, DV.u32 300, DV.u32s [5]] =
    .ok ([3] ++ leBytes 4 19 ++ (leBytes 4 12 ++ leBytes 4 13 ++ leBytes 4 16) ++ [7] ++ [251, 44, 1] ++
      [0, 1, 5]) := by rfl

/-- A payload that does not fit its 32-bit length is an error, not a truncated record. -/
theorem C48_too_long (cfg : Cfg) (h : List Entry) (hh : ValidHistory h) (fs : List (FieldDecl V))
    (vs : List V) (bs : List Bytes)
    (hbs : Encodes (fun f => f.wire (lastEntry h)) (aliveFields fs h.length) vs bs)
    (ho : (lastEntry h).optimised = true) (hlt : 2 ^ 32 ≤ (structPayload (lastEntry h) bs).length) :
    (structC cfg h fs).enc vs = .err .serialize := by
  unfold structC
  simp only
  rw [← hh.lastEntry_revision] at hbs
  rw [serializeStructBody_encodes _ fs vs bs hbs, if_pos ⟨ho, hlt⟩]
  rfl

/-- A field that takes as many bytes as its value says. -/
def blobField : FieldDecl Nat where
  name := "blob"
  opts := {}
  plain := ⟨fun _ => True, fun n => .ok (List.replicate n 0), Rd.fail .io, Rd.fail .io, Rd.fail .io, Rd.fail .io⟩
  fixedLe := ⟨fun _ => True, fun n => .ok (List.replicate n 0), Rd.fail .io, Rd.fail .io, Rd.fail .io, Rd.fail .io⟩
  bulk := ⟨fun _ => True, fun n => .ok (List.replicate n 0), Rd.fail .io, Rd.fail .io, Rd.fail .io, Rd.fail .io⟩
  indexed := ⟨fun _ => True, fun n => .ok (List.replicate n 0), Rd.fail .io, Rd.fail .io, Rd.fail .io, Rd.fail .io⟩
  dflt := fun _ => .panic
  convert := fun _ _ _ => .panic

/-- 2^32 bytes, or any number from there on, are refused. -/
example (n : Nat) (hn : 2 ^ 32 ≤ n) :
    (structC .default [⟨1, true, false⟩] [blobField]).enc [n] = .err .serialize :=
  C48_too_long .default [⟨1, true, false⟩] ⟨by decide, by decide, by decide⟩ [blobField] [n]
    [List.replicate n 0] (.cons rfl .nil) rfl (by
      show 2 ^ 32 ≤ (List.flatten [List.replicate n (0 : UInt8)]).length
      rw [List.flatten_cons, List.flatten_nil, List.append_nil, List.length_replicate]
      exact hn)

/-! ## C50 Older data migrates as declared -/

/-- Data written by the program as it stood at revision `k`, followed by anything, is read by the
current program as `migrate` says: stored values are kept, added fields get their default for `k`,
removed fields go through their convert functions in declaration order, and the first error of a
default or convert function is the outcome.  What follows the data is left unread.

Missing from the full property: schemas in which a field added since has the name of a removed one
(`C50_shadowing_false`), and removed fields with an indexed encoding in an optimised struct
(`C50_removed_indexed_false`). -/
theorem C50_migrates_partial (cfg : Cfg) (h : List Entry) (hh : ValidHistory h) (fs : List (FieldDecl V))
    (k : Nat) (h1 : 1 ≤ k) (h2 : k ≤ h.length)
    (hf : ∀ f ∈ fs, f.existsAt k = true → (f.wire (lastEntry (h.take k))).Faithful)
    (hn : DistinctNames fs k h.length)
    (hx : ∀ f ∈ fs, f.existsAt k = true → f.existsAt h.length = false →
      (lastEntry (h.take k)).optimised = true → f.isIndexed = false)
    (vs : List V) (b t : Bytes)
    (hv : (structC cfg (h.take k) (fieldsAsOf k fs)).valid vs)
    (hb : (structC cfg (h.take k) (fieldsAsOf k fs)).enc vs = .ok b) :
    (structC cfg h fs).dec (b ++ t) = (migrate k h.length fs vs).andRest t := by
  have hmem : lastEntry (h.take k) ∈ h := List.mem_of_getElem? (hh.lastEntry_take h1 h2)
  have hrev : (lastEntry (h.take k)).revision = k := by
    have := hh.revision_get (hh.lastEntry_take h1 h2)
    omega
  have hkt := (hh.take h1 h2).latest_eq
  rw [List.length_take, Nat.min_eq_left h2] at hkt
  have hk64 : k < 2 ^ 64 - 1 := by have := hh.fits; omega
  unfold structC at hv hb ⊢
  simp only [hkt, hh.latest_eq] at hv hb ⊢
  generalize lastEntry (h.take k) = e at *
  subst hrev
  obtain ⟨body, hbody, hb'⟩ := Res.bind_eq_ok.1 hb
  cases hb'
  rw [serializeStructBody_asOf e hk64] at hbody
  rw [validFields_asOf hk64, validFields_iff] at hv
  rw [List.append_assoc, dispatch_hit cfg hh hmem]
  refine deserializeStructBody_run e h.length fs vs body t ?_ ?_ hn hv hbody
  · intro f hfm hc _ v b hv hb t
    exact (hf f hfm hc).round_trip v b hv hb t
  · intro f hfm hc ht v b hv hb t
    have hrt := (hf f hfm hc).round_trip v b hv hb t
    have hi := hx f hfm hc ht
    show (f.removedDec e) (b ++ t) = _
    simp only [FieldDecl.wire, FieldDecl.optimisedC] at hrt
    unfold FieldDecl.removedDec
    by_cases ho : e.optimised
    · rw [if_pos ho, hi ho] at hrt
      rw [if_pos ho]
      exact hrt
    · rw [if_neg ho] at hrt ⊢
      exact hrt

/-- The same for fields of any supported types. -/
theorem C50_migrates_types_partial {ι : Type} [DecidableEq ι] {E : Env ι} (cfg : Cfg) (hE : E.Lawful)
    (hc : ∀ i, (E.extC i).CheckLaw) (h : List Entry) (hh : ValidHistory h) (fs : List (FieldDecl (Dyn E)))
    (hty : ∀ f ∈ fs, ∃ name opts t d c, f = tyField cfg E name opts t d c)
    (k : Nat) (h1 : 1 ≤ k) (h2 : k ≤ h.length) (hn : DistinctNames fs k h.length)
    (hx : ∀ f ∈ fs, f.existsAt k = true → f.existsAt h.length = false →
      (lastEntry (h.take k)).optimised = true → f.isIndexed = false)
    (vs : List (Dyn E)) (b t : Bytes)
    (hv : (structC cfg (h.take k) (fieldsAsOf k fs)).valid vs)
    (hb : (structC cfg (h.take k) (fieldsAsOf k fs)).enc vs = .ok b) :
    (structC cfg h fs).dec (b ++ t) = (migrate k h.length fs vs).andRest t := by
  refine C50_migrates_partial cfg h hh fs k h1 h2 ?_ hn hx vs b t hv hb
  intro f hf _
  obtain ⟨name, opts, ty, d, c, rfl⟩ := hty f hf
  exact tyField_wire_faithful cfg hE hc name opts ty d c _

example (t : Bytes) := C50_migrates_types_partial .default demoEnv_lawful (fun i => nomatch i) demoHistory
  demoHistory_valid (demoFields .default) (by
    intro f hf
    simp only [demoFields, List.mem_cons, List.not_mem_nil, or_false] at hf
    rcases hf with rfl | rfl | rfl | rfl <;> exact ⟨_, _, _, _, _, rfl⟩)
  1 (by decide) (by decide) demoFields_distinct.1 (fun _ _ _ _ ho => by cases ho)
  [DV.u32 7, DV.u32 300] [1, 7, 251, 44, 1] t ⟨⟨_, rfl, trivial⟩, ⟨_, rfl, trivial⟩, rfl⟩ rfl

/-- A revision-1 record `{ kept: 7, removed: 300 }`, read at revision 3. -/
example :
    (structC .default (demoHistory.take 1) (fieldsAsOf 1 (demoFields .default))).enc [DV.u32 7, DV.u32 300] =
        .ok [1, 7, 251, 44, 1] ∧
      migrate 1 3 (demoFields .default) [DV.u32 7, DV.u32 300] = .ok [DV.u32 301, DV.u32 1, DV.u32s []] ∧
      (structC .default demoHistory (demoFields .default)).dec ([1, 7, 251, 44, 1] ++ [99]) =
        .ok ([DV.u32 301, DV.u32 1, DV.u32s []], [99]) := ⟨rfl, rfl, rfl⟩

/-- The theorem applied to records of revisions 1 (legacy) and 2 (optimised). -/
example (t : Bytes) :
    (structC .default demoHistory (demoFields .default)).dec ([1, 7, 251, 44, 1] ++ t) =
      .ok ([DV.u32 301, DV.u32 1, DV.u32s []], t) :=
  C50_migrates_partial .default demoHistory demoHistory_valid (demoFields .default) 1 (by decide) (by decide)
    (fun f hf _ => demoFields_faithful f hf _) demoFields_distinct.1 (fun _ _ _ _ ho => by cases ho)
    [DV.u32 7, DV.u32 300] [1, 7, 251, 44, 1] t ⟨⟨_, rfl, trivial⟩, ⟨_, rfl, trivial⟩, rfl⟩ rfl

example (t : Bytes) :
    (structC .default demoHistory (demoFields .default)).dec ([2, 4, 0, 0, 0, 7, 251, 44, 1] ++ t) =
      .ok ([DV.u32 7, DV.u32 300, DV.u32s []], t) := by
  refine C50_migrates_partial .default demoHistory demoHistory_valid (demoFields .default) 2 (by decide) (by decide)
    (fun f hf _ => demoFields_faithful f hf _) demoFields_distinct.2.1 ?_
    [DV.u32 7, DV.u32 300] [2, 4, 0, 0, 0, 7, 251, 44, 1] t ⟨⟨_, rfl, trivial⟩, ⟨_, rfl, trivial⟩, rfl⟩ rfl
  intro f hf h2 h3
  simp only [demoFields, List.mem_cons, List.not_mem_nil, or_false] at hf
  rcases hf with rfl | rfl | rfl | rfl <;> first | (cases h2; done) | (cases h3; done)

/-- ```
struct S {
    #[revision(end = 2, convert_fn = "…")] a: u32,      // stores a + revision in the first field
    #[revision(start = 2, default_fn = "…")] a: u32,
}
```
Both fields are bound to the name `a`: the convert function receives the default of the new field in
place of the stored value. -/
def shadowFields (cfg : Cfg) : List (FieldDecl DV) :=
  [u32Field cfg "a" { stop := some 2, convert := some "…" },
   u32Field cfg "a" { start := some 2, default := some "…" }]

/-- Migration is not as declared when a field added since has the name of a removed one: revision 1
stored 41, and the convert function gets the new field's default, 1. -/
theorem C50_shadowing_false :
    ∃ (h : List Entry) (fs : List (FieldDecl DV)) (vs : List DV) (b : Bytes),
      ValidHistory h ∧ (∀ e, ∀ f ∈ fs, (f.wire e).Faithful) ∧
      (structC .default (h.take 1) (fieldsAsOf 1 fs)).valid vs ∧
      (structC .default (h.take 1) (fieldsAsOf 1 fs)).enc vs = .ok b ∧
      migrate 1 2 fs vs = .ok [DV.u32 42] ∧
      (structC .default h fs).dec b = .ok ([DV.u32 2], []) := by
  refine ⟨[⟨1, false, false⟩, ⟨2, false, false⟩], shadowFields .default, [DV.u32 41], [1, 41],
    ⟨by decide, by decide, by decide⟩, ?_, ?_, rfl, rfl, rfl⟩
  · intro e f hf
    simp only [shadowFields, List.mem_cons, List.not_mem_nil, or_false] at hf
    rcases hf with rfl | rfl <;>
      exact tyField_wire_faithful .default demoEnv_lawful (fun i => nomatch i) _ _ _ _ _ e
  · exact ⟨⟨_, rfl, trivial⟩, rfl⟩

/-- ```
#[revisioned(revision(1, optimised), revision(2, optimised))]
struct S {
    n: u32,
    #[revision(end = 2, convert_fn = "…", indexed_seq)] list: Vec<u32>, // stores the length in `n`
}
``` -/
def removedIndexedFields (cfg : Cfg) : List (FieldDecl DV) :=
  [u32Field cfg "n" {},
   u32sField cfg "list" { stop := some 2, convert := some "…", indexedSeq := true }]

/-- Migration is not as declared for a removed field with an indexed encoding: it is decoded as if
it were plain, and the convert function gets an empty list in place of the stored one. -/
theorem C50_removed_indexed_false :
    ∃ (h : List Entry) (fs : List (FieldDecl DV)) (vs : List DV) (b : Bytes),
      ValidHistory h ∧ DistinctNames fs 1 2 ∧ (∀ e, ∀ f ∈ fs, (f.wire e).Faithful) ∧
      (structC .default (h.take 1) (fieldsAsOf 1 fs)).valid vs ∧
      (structC .default (h.take 1) (fieldsAsOf 1 fs)).enc vs = .ok b ∧
      migrate 1 2 fs vs = .ok [DV.u32 1] ∧
      (structC .default h fs).dec b = .ok ([DV.u32 0], []) := by
  refine ⟨[⟨1, true, false⟩, ⟨2, true, false⟩], removedIndexedFields .default, [DV.u32 9, DV.u32s [5]],
    [1, 4, 0, 0, 0, 9, 0, 1, 5], ⟨by decide, by decide, by decide⟩, ?_, ?_, ?_, rfl, rfl, rfl⟩
  · simp [DistinctNames, removedIndexedFields, u32Field, u32sField, tyField, FieldDecl.existsAt, existsAt]
  · intro e f hf
    simp only [removedIndexedFields, List.mem_cons, List.not_mem_nil, or_false] at hf
    rcases hf with rfl | rfl <;>
      exact tyField_wire_faithful .default demoEnv_lawful (fun i => nomatch i) _ _ _ _ _ e
  · exact ⟨⟨_, rfl, trivial⟩, ⟨_, rfl, demo_list_valid⟩, rfl⟩

/-! ## C49 Current revision round trip -/

/-- A struct value serialised at the current revision is read back, whatever follows it, and what
follows is left unread. -/
theorem C49_round_trip (cfg : Cfg) (h : List Entry) (hh : ValidHistory h) (fs : List (FieldDecl V))
    (hf : ∀ f ∈ fs, f.existsAt h.length = true → (f.wire (lastEntry h)).Faithful)
    (hn : DistinctNames fs h.length h.length)
    (vs : List V) (b t : Bytes) (hv : (structC cfg h fs).valid vs)
    (hb : (structC cfg h fs).enc vs = .ok b) :
    (structC cfg h fs).dec (b ++ t) = .ok (vs, t) := by
  have hrev := hh.lastEntry_revision
  unfold structC at hv hb ⊢
  simp only [hh.latest_eq] at hv hb ⊢
  obtain ⟨body, hbody, hb'⟩ := Res.bind_eq_ok.1 hb
  cases hb'
  rw [List.append_assoc, ← hrev, dispatch_hit cfg hh hh.lastEntry_mem]
  rw [validFields_iff, ← hrev] at hv
  rw [← hrev] at hn hf
  rw [deserializeStructBody_run (lastEntry h) _ fs vs body t ?_ ?_ hn hv hbody, migrate_same fs vs hv]
  · rfl
  · intro f hfm hc _ v b hv hb t
    exact (hf f hfm hc).round_trip v b hv hb t
  · intro f hfm hc ht
    rw [hc] at ht; cases ht

/-- The same for fields of any supported types. -/
theorem C49_round_trip_types {ι : Type} [DecidableEq ι] {E : Env ι} (cfg : Cfg) (hE : E.Lawful)
    (hc : ∀ i, (E.extC i).CheckLaw) (h : List Entry) (hh : ValidHistory h) (fs : List (FieldDecl (Dyn E)))
    (hty : ∀ f ∈ fs, ∃ name opts t d c, f = tyField cfg E name opts t d c)
    (hn : DistinctNames fs h.length h.length)
    (vs : List (Dyn E)) (b t : Bytes) (hv : (structC cfg h fs).valid vs)
    (hb : (structC cfg h fs).enc vs = .ok b) :
    (structC cfg h fs).dec (b ++ t) = .ok (vs, t) := by
  refine C49_round_trip cfg h hh fs ?_ hn vs b t hv hb
  intro f hf _
  obtain ⟨name, opts, ty, d, c, rfl⟩ := hty f hf
  exact tyField_wire_faithful cfg hE hc name opts ty d c _

example (t : Bytes) := C49_round_trip_types .default demoEnv_lawful (fun i => nomatch i) demoHistory
  demoHistory_valid (demoFields .default) (by
    intro f hf
    simp only [demoFields, List.mem_cons, List.not_mem_nil, or_false] at hf
    rcases hf with rfl | rfl | rfl | rfl <;> exact ⟨_, _, _, _, _, rfl⟩)
  demoFields_distinct.2.2 [DV.u32 7, DV.u32 300, DV.u32s [5]] _ t
  ⟨⟨_, rfl, trivial⟩, ⟨_, rfl, trivial⟩, ⟨_, rfl, demo_list_valid⟩, rfl⟩ rfl

example (t : Bytes) :
    (structC .default demoHistory (demoFields .default)).dec
        ([3] ++ structLayout ⟨3, true, true⟩ [[7], [251, 44, 1], [0, 1, 5]] ++ t) =
      .ok ([DV.u32 7, DV.u32 300, DV.u32s [5]], t) :=
  C49_round_trip .default demoHistory demoHistory_valid (demoFields .default)
    (fun f hf _ => demoFields_faithful f hf _) demoFields_distinct.2.2 _ _ t
    ⟨⟨_, rfl, trivial⟩, ⟨_, rfl, trivial⟩, ⟨_, rfl, demo_list_valid⟩, rfl⟩ rfl

/-! ## C51 Unknown revisions are refused -/

/-- Whatever the bytes, if the header is not one of the type's revisions then decoding, skipping and
checking fail with the deserialisation error; the result does not depend on what follows. -/
theorem C51_unknown_revision (cfg : Cfg) (h : List Entry) (hh : ValidHistory h) (fs : List (FieldDecl V))
    (s r t) (hs : readU16 cfg s = .ok (r, t)) (hr : r = 0 ∨ h.length < r) :
    (structC cfg h fs).dec s = .err .deserialize ∧ (structC cfg h fs).skip s = .err .deserialize ∧
      (structC cfg h fs).skipS s = .err .deserialize ∧ (structC cfg h fs).check s = .err .deserialize := by
  have key : ∀ {α : Type} (arm : Entry → Rd α), dispatchRevision cfg h arm s = .err .deserialize := by
    intro α arm
    unfold dispatchRevision
    rw [Rd.bind_of_ok hs]
    simp only [hh.find_none hr]
    rfl
  refine ⟨key _, key _, key _, ?_⟩
  show (Rd.discard _) s = _
  unfold Rd.discard
  rw [Rd.bind_of_err (key _)]

/-- The same for an enum. -/
theorem C51_unknown_revision_enum (cfg : Cfg) (h : List Entry) (hh : ValidHistory h) (vs : List (VariantDecl V))
    (s r t) (hs : readU16 cfg s = .ok (r, t)) (hr : r = 0 ∨ h.length < r) :
    (enumC cfg h vs).dec s = .err .deserialize ∧ (enumC cfg h vs).skip s = .err .deserialize ∧
      (enumC cfg h vs).skipS s = .err .deserialize ∧ (enumC cfg h vs).check s = .err .deserialize := by
  have key : ∀ {α : Type} (arm : Entry → Rd α), dispatchRevision cfg h arm s = .err .deserialize := by
    intro α arm
    unfold dispatchRevision
    rw [Rd.bind_of_ok hs]
    simp only [hh.find_none hr]
    rfl
  refine ⟨key _, key _, key _, ?_⟩
  show (Rd.discard _) s = _
  unfold Rd.discard
  rw [Rd.bind_of_err (key _)]

example (t : Bytes) := C51_unknown_revision_enum .default demoHistory demoHistory_valid
  ([] : List (VariantDecl DV)) (0 :: t) 0 t rfl (.inl rfl)

/-- A header written by a newer program, followed by anything, is refused. -/
theorem C51_newer_data (cfg : Cfg) (h : List Entry) (hh : ValidHistory h) (fs : List (FieldDecl V))
    (r : Nat) (hr : h.length < r) (h16 : r < 2 ^ 16) (t : Bytes) :
    (structC cfg h fs).dec (encU16 cfg r ++ t) = .err .deserialize :=
  (C51_unknown_revision cfg h hh fs _ r t (readU16_encU16 cfg h16 t) (.inr hr)).1

example (t : Bytes) := C51_newer_data .default demoHistory demoHistory_valid (demoFields .default) 4 (by decide)
  (by decide) t

example (t : Bytes) : (structC .default demoHistory (demoFields .default)).skip (251 :: 4 :: 0 :: t) =
    .err .deserialize :=
  (C51_unknown_revision .default demoHistory demoHistory_valid (demoFields .default) _ 4 t rfl
    (.inr (by decide))).2.1

example : readU16 .default [4, 1, 2] = .ok (4, [1, 2]) ∧
    (structC .default demoHistory (demoFields .default)).dec [4, 1, 2] = .err .deserialize ∧
    (structC .default demoHistory (demoFields .default)).dec [251, 4, 0, 1, 2] = .err .deserialize :=
  ⟨rfl, rfl, rfl⟩

/-! ## C55 Skipping a derived struct -/

/-- Whatever the bytes and whichever revision they are of, if the value decodes then both skips
succeed and stop where decoding stops.  In an optimised revision no field is looked at.

Missing from the full property: fields for which skipping does not follow the decoder, which are the
`specialised` ones without the `specialised-vectors` feature (`C55_specialised_false`). -/
theorem C55_skip_partial (cfg : Cfg) (h : List Entry) (fs : List (FieldDecl V))
    (hf : ∀ e ∈ h, e.optimised = false → ∀ f ∈ fs, f.existsAt e.revision = true →
      f.legacyC.dec.Agree f.legacySkip ∧ f.legacyC.dec.Agree f.legacySkipS) :
    (structC cfg h fs).dec.Agree (structC cfg h fs).skip ∧
      (structC cfg h fs).dec.Agree (structC cfg h fs).skipS ∧
      (structC cfg h fs).dec.SameAccept (structC cfg h fs).check := by
  refine ⟨?_, ?_, ?_⟩
  · refine dispatch_agree cfg h fun e he => ?_
    exact deserializeStructBody_agree e (latest h) fs (fun n => Rd.Agree.readExact_advance n)
      (fun ho f hfm ha => (hf e he ho f hfm ha).1)
  · refine dispatch_agree cfg h fun e he => ?_
    exact deserializeStructBody_agree e (latest h) fs (fun n => Rd.Agree.readExact_consume n)
      (fun ho f hfm ha => (hf e he ho f hfm ha).2)
  · exact .discard _

/-- The same for fields of any supported types. -/
theorem C55_skip_types_partial {ι : Type} [DecidableEq ι] {E : Env ι} (cfg : Cfg) (hE : E.Lawful)
    (h : List Entry) (fs : List (FieldDecl (Dyn E)))
    (hty : ∀ f ∈ fs, ∃ name opts t d c, f = tyField cfg E name opts t d c)
    (hs : cfg.specialised = true ∨ ∀ f ∈ fs, f.opts.specialised = false) :
    (structC cfg h fs).dec.Agree (structC cfg h fs).skip ∧
      (structC cfg h fs).dec.Agree (structC cfg h fs).skipS ∧
      (structC cfg h fs).dec.SameAccept (structC cfg h fs).check := by
  refine C55_skip_partial cfg h fs ?_
  intro e _ _ f hf _
  have hs : cfg.specialised = true ∨ f.opts.specialised = false := hs.imp_right fun hs => hs f hf
  obtain ⟨name, opts, ty, d, c, rfl⟩ := hty f hf
  exact tyField_legacySkip cfg hE name opts ty d c hs

/-- The theorem applied to the demonstration, whose fields use every encoding. -/
example : (structC .default demoHistory (demoFields .default)).dec.Agree
    (structC .default demoHistory (demoFields .default)).skip :=
  (C55_skip_types_partial .default demoEnv_lawful demoHistory (demoFields .default) (by
    intro f hf
    simp only [demoFields, List.mem_cons, List.not_mem_nil, or_false] at hf
    rcases hf with rfl | rfl | rfl | rfl <;> exact ⟨_, _, _, _, _, rfl⟩) (.inl rfl)).1

/-- A revision-2 record (optimised) of the demonstration, and one of revision 1: both skips stop
where decoding does. -/
example :
    (structC .default demoHistory (demoFields .default)).dec [1, 7, 251, 44, 1, 99] =
        .ok ([DV.u32 301, DV.u32 1, DV.u32s []], [99]) ∧
      (structC .default demoHistory (demoFields .default)).skip [1, 7, 251, 44, 1, 99] = .ok ((), [99]) ∧
      (structC .default demoHistory (demoFields .default)).skip [2, 2, 0, 0, 0, 7, 8, 99] = .ok ((), [99]) :=
  ⟨rfl, rfl, rfl⟩

/-- Without the `specialised-vectors` feature, skipping a `#[revision(specialised)]` field of a legacy
revision stops in the middle of it: `Vec<u32>` holding 251 is written as four plain bytes and skipped
as a variable-length integer. -/
theorem C55_specialised_false :
    ∃ (h : List Entry) (fs : List (FieldDecl DV)) (vs : List DV) (b : Bytes),
      ValidHistory h ∧ (structC ⟨false, false⟩ h fs).enc vs = .ok b ∧
      (structC ⟨false, false⟩ h fs).dec b = .ok (vs, []) ∧
      (structC ⟨false, false⟩ h fs).skip b = .ok ((), [0]) :=
  ⟨[⟨1, false, false⟩], [u32sField ⟨false, false⟩ "list" { specialised := true }], [DV.u32s [251]],
    [1, 1, 251, 0, 0, 0], ⟨by decide, by decide, by decide⟩, rfl, rfl, rfl⟩

end Revision
