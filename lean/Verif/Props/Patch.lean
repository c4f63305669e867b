import Verif.Proofs.PatchSize
import Verif.Props.Width
import Verif.Props.WireIndexed

/-!
# Property C135: a record can be changed in place

Spec: `Spec/Patch.lean` (`Program.Replaced`: two values that differ in one part, serialised as `b` in one and as `b'` in the other).
-/

namespace Revision

variable {ι : Type} [DecidableEq ι]

/-- C135: if one part of a value, at any depth, is replaced by another that takes as many bytes, the serialised value changes only where
the part is: overwriting the part's bytes gives what the new value is serialised to. -/
theorem C135_in_place (cfg : Cfg) (P : Program ι) (I : Impls P.kind) (hh : ∀ i, ValidHistory (P.history i))
    (hA : ∀ i, (P.body i).Accepted (lastEntry (P.history i))) (b b' : Bytes) (hlen : b'.length = b.length) (n : Nat) (t : Ty ι)
    (v v' : t.denote (Values P.kind n)) (h : P.Replaced cfg I b b' n t v v') (o : Bytes) (ho : P.encode cfg I n t v = .ok o) :
    ∃ p q, o = p ++ b ++ q ∧ P.encode cfg I n t v' = .ok (p ++ b' ++ q) :=
  Program.Replaced.enc hh hA (.inl hlen.symm) n t v v' h o ho

/-- C135: if no type's current revision is optimised, the same for parts of any size: the new bytes take the place of the old ones and
what follows moves. -/
theorem C135_resized (cfg : Cfg) (P : Program ι) (I : Impls P.kind) (hh : ∀ i, ValidHistory (P.history i))
    (hA : ∀ i, (P.body i).Accepted (lastEntry (P.history i))) (hL : P.WritesLegacy) (b b' : Bytes) (n : Nat) (t : Ty ι)
    (v v' : t.denote (Values P.kind n)) (h : P.Replaced cfg I b b' n t v v') (o : Bytes) (ho : P.encode cfg I n t v = .ok o) :
    ∃ p q, o = p ++ b ++ q ∧ P.encode cfg I n t v' = .ok (p ++ b' ++ q) :=
  Program.Replaced.enc hh hA (.inr hL) n t v v' h o ho

/-- C135: and the record is then read as the new value.  Missing from the full property: what `C73_round_trip_partial` misses. -/
theorem C135_read_partial (cfg : Cfg) (P : Program ι) (I : Impls P.kind) (htrans : ∀ n t, Std.TransCmp (I.cmp n t))
    (hP : P.Readable cfg P.current) (hA : ∀ i, (P.body i).Accepted (lastEntry (P.history i))) (b b' : Bytes)
    (hlen : b'.length = b.length) (n : Nat) (i : ι) (v v' : Values P.kind n i) (h : P.Replaced cfg I b b' n (.ext i) v v')
    (hv : (P.codec cfg I n i).valid v') (o : Bytes) (ho : (P.codec cfg I n i).enc v = .ok o) :
    ∃ p q, o = p ++ b ++ q ∧ ∀ rest, (P.codec cfg I n i).dec (p ++ b' ++ q ++ rest) = .ok (v', rest) := by
  obtain ⟨p, q, rfl, h'⟩ := C135_in_place cfg P I hP.history hA b b' hlen n (.ext i) v v' h o ho
  exact ⟨p, q, rfl, fun rest => (C73_round_trip_partial cfg P I htrans hP n i v' _ hv h' rest).1⟩

/-- C135: in every format and whatever the sizes, only the part and what precedes it change: as many bytes precede the part and the same
bytes follow it. -/
theorem C135_behind (cfg : Cfg) (P : Program ι) (I : Impls P.kind) (hh : ∀ i, ValidHistory (P.history i))
    (hA : ∀ i, (P.body i).Accepted (lastEntry (P.history i))) (b b' : Bytes) (n : Nat) (t : Ty ι)
    (v v' : t.denote (Values P.kind n)) (h : P.Replaced cfg I b b' n t v v') (o o' : Bytes) (ho : P.encode cfg I n t v = .ok o)
    (ho' : P.encode cfg I n t v' = .ok o') :
    ∃ p p' q, o = p ++ b ++ q ∧ o' = p' ++ b' ++ q ∧ p.length = p'.length :=
  Program.Replaced.shifted hh hA n t v v' h o o' ho ho'

/-- C135: so replacing one part changes the size of the record by as much as the size of the part: lengths, offsets and counts around it
take the same space. -/
theorem C135_size (cfg : Cfg) (P : Program ι) (I : Impls P.kind) (hh : ∀ i, ValidHistory (P.history i))
    (hA : ∀ i, (P.body i).Accepted (lastEntry (P.history i))) (b b' : Bytes) (n : Nat) (t : Ty ι)
    (v v' : t.denote (Values P.kind n)) (h : P.Replaced cfg I b b' n t v v') (o o' : Bytes) (ho : P.encode cfg I n t v = .ok o)
    (ho' : P.encode cfg I n t v' = .ok o') : (o'.length : Int) - o.length = b'.length - b.length := by
  obtain ⟨p, p', q, rfl, rfl, hp⟩ := C135_behind cfg P I hh hA b b' n t v v' h o o' ho ho'
  simp only [List.length_append]
  omega

/-- C135: and no change of a part goes unnoticed: the records are the same bytes only if the part is. -/
theorem C135_distinct (cfg : Cfg) (P : Program ι) (I : Impls P.kind) (hh : ∀ i, ValidHistory (P.history i))
    (hA : ∀ i, (P.body i).Accepted (lastEntry (P.history i))) (b b' : Bytes) (n : Nat) (t : Ty ι)
    (v v' : t.denote (Values P.kind n)) (h : P.Replaced cfg I b b' n t v v') (o : Bytes) (ho : P.encode cfg I n t v = .ok o) :
    P.encode cfg I n t v' = .ok o ↔ b' = b := by
  constructor
  · intro ho'
    obtain ⟨p, p', q, e, e', hp⟩ := C135_behind cfg P I hh hA b b' n t v v' h o o ho ho'
    have := List.append_cancel_right (e'.symm.trans e)
    exact (List.append_inj this hp.symm).2
  · rintro rfl
    obtain ⟨p, q, rfl, h'⟩ := C135_in_place cfg P I hh hA b' b' rfl n t v v' h o ho
    exact h'

/-- C135: any number of parts, at any depths and one inside the other or not, can be replaced in place one after the other, each by one
that takes as many bytes: the bytes overwritten so are what the last value is serialised to, and the record keeps its size. -/
theorem C135_many (cfg : Cfg) (P : Program ι) (I : Impls P.kind) (hh : ∀ i, ValidHistory (P.history i))
    (hA : ∀ i, (P.body i).Accepted (lastEntry (P.history i))) (l : List (Bytes × Bytes)) (hlen : ∀ e ∈ l, e.2.length = e.1.length)
    (n : Nat) (t : Ty ι) (v v' : t.denote (Values P.kind n)) (h : P.Edited cfg I n t l v v') (o : Bytes)
    (ho : P.encode cfg I n t v = .ok o) :
    ∃ o', Overwritten l o o' ∧ P.encode cfg I n t v' = .ok o' ∧ o'.length = o.length := by
  induction h generalizing o with
  | refl v => exact ⟨o, .refl o, ho, rfl⟩
  | @step b b' l v v' v'' h1 _ ih =>
    have hb : b'.length = b.length := hlen (b, b') (.head _)
    obtain ⟨p, q, rfl, h'⟩ := C135_in_place cfg P I hh hA b b' hb n t v v' h1 o ho
    obtain ⟨o', h2, h3, h4⟩ := ih (fun e he => hlen e (.tail _ he)) _ h'
    refine ⟨o', .step p q h2, h3, ?_⟩
    simp only [List.length_append] at h4 ⊢
    omega

/-- C135: if no type's current revision is optimised, the same for parts of any size, and the size of the record changes by as much as
the sizes of the parts do together. -/
theorem C135_many_resized (cfg : Cfg) (P : Program ι) (I : Impls P.kind) (hh : ∀ i, ValidHistory (P.history i))
    (hA : ∀ i, (P.body i).Accepted (lastEntry (P.history i))) (hL : P.WritesLegacy) (l : List (Bytes × Bytes)) (n : Nat) (t : Ty ι)
    (v v' : t.denote (Values P.kind n)) (h : P.Edited cfg I n t l v v') (o : Bytes) (ho : P.encode cfg I n t v = .ok o) :
    ∃ o', Overwritten l o o' ∧ P.encode cfg I n t v' = .ok o' ∧
      o'.length + (l.map (·.1.length)).sum = o.length + (l.map (·.2.length)).sum := by
  induction h generalizing o with
  | refl v => exact ⟨o, .refl o, ho, rfl⟩
  | @step b b' l v v' v'' h1 _ ih =>
    obtain ⟨p, q, rfl, h'⟩ := C135_resized cfg P I hh hA hL b b' n t v v' h1 o ho
    obtain ⟨o', h2, h3, h4⟩ := ih _ h'
    refine ⟨o', .step p q h2, h3, ?_⟩
    simp only [List.length_append, List.map_cons, List.sum_cons] at h4 ⊢
    omega

/-- C135: and the record is then read as the last value.  Missing from the full property: what `C73_round_trip_partial` misses. -/
theorem C135_many_read_partial (cfg : Cfg) (P : Program ι) (I : Impls P.kind) (htrans : ∀ n t, Std.TransCmp (I.cmp n t))
    (hP : P.Readable cfg P.current) (hA : ∀ i, (P.body i).Accepted (lastEntry (P.history i))) (l : List (Bytes × Bytes))
    (hlen : ∀ e ∈ l, e.2.length = e.1.length) (n : Nat) (i : ι) (v v' : Values P.kind n i) (h : P.Edited cfg I n (.ext i) l v v')
    (hv : (P.codec cfg I n i).valid v') (o : Bytes) (ho : (P.codec cfg I n i).enc v = .ok o) :
    ∃ o', Overwritten l o o' ∧ o'.length = o.length ∧ ∀ rest, (P.codec cfg I n i).dec (o' ++ rest) = .ok (v', rest) := by
  obtain ⟨o', h1, h2, h3⟩ := C135_many cfg P I hP.history hA l hlen n (.ext i) v v' h o ho
  exact ⟨o', h1, h3, fun rest => (C73_round_trip_partial cfg P I htrans hP n i v' _ hv h2 rest).1⟩

/-! ### The demonstration -/

/-- The segment from (1, 2) to (5, -2). -/
def segmentMoved : Values segmentProgram.kind 2 true :=
  ([⟨.ext false, segmentPoint 1 2⟩, ⟨.ext false, segmentPoint 5 (-2)⟩, ⟨.float .f64, (0 : BitVec 64)⟩] : List _)

/-- It differs from the segment from (1, 2) to (-1, -2) in the coordinate `to.x`. -/
theorem segment_replaced : segmentProgram.Replaced ⟨true, true⟩ segmentImpls [1, 0, 0, 0] [10, 0, 0, 0] 2 (.ext true) segmentValue
    segmentMoved := by
  refine .ext ⟨rfl, _, [⟨.ext false, segmentPoint 1 2⟩], ⟨.ext false, segmentPoint (-1) (-2)⟩, ⟨.ext false, segmentPoint 5 (-2)⟩,
    [⟨.float .f64, (0 : BitVec 64)⟩], rfl, rfl, rfl, .inr <| .inl ⟨.inr rfl, _, _, rfl, rfl, ?_⟩⟩
  exact .ext ⟨rfl, _, [], ⟨.int .i32, (-1 : BitVec 32)⟩, ⟨.int .i32, (5 : BitVec 32)⟩, [⟨.int .i32, (-2 : BitVec 32)⟩], rfl, rfl, rfl,
    .inl ⟨rfl, rfl⟩⟩

/-- The four bytes of `to.x` are overwritten, in the middle of an indexed struct. -/
example : ∃ p q, [2, 0] ++ [40, 0, 0, 0] ++ [12, 0, 0, 0, 22, 0, 0, 0, 32, 0, 0, 0] ++ [1, 0, 2, 0, 0, 0, 2, 0, 0, 0] ++
      [1, 0, 1, 0, 0, 0, 254, 255, 255, 255] ++ [0, 0, 0, 0, 0, 0, 0, 0] = p ++ [1, 0, 0, 0] ++ q ∧
    segmentProgram.encode ⟨true, true⟩ segmentImpls 2 (.ext true) segmentMoved = .ok (p ++ [10, 0, 0, 0] ++ q) :=
  C135_in_place ⟨true, true⟩ segmentProgram segmentImpls (fun i => by cases i <;> exact ⟨by decide, by decide, by decide⟩)
    (fun i => by cases i <;> trivial) [1, 0, 0, 0] [10, 0, 0, 0] rfl 2 (.ext true) segmentValue segmentMoved segment_replaced _ (by rfl)

theorem segment_readable : segmentProgram.Readable ⟨true, true⟩ segmentProgram.current where
  history i := by cases i <;> exact ⟨by decide, by decide, by decide⟩
  lower i := by cases i <;> decide
  upper i := Nat.le_refl _
  body i := by
    cases i
    · exact ⟨by unfold DistinctFieldNames; decide, fun h => (by cases h), fun _ _ _ => .inl rfl⟩
    · exact ⟨by unfold DistinctFieldNames; decide, fun _ f _ h h' => (by cases (show true = false from h.symm.trans h')),
        fun h => (by cases h)⟩

/-- The patched segment is read as the moved one. -/
example : ∃ p q, [2, 0] ++ [40, 0, 0, 0] ++ [12, 0, 0, 0, 22, 0, 0, 0, 32, 0, 0, 0] ++ [1, 0, 2, 0, 0, 0, 2, 0, 0, 0] ++
      [1, 0, 1, 0, 0, 0, 254, 255, 255, 255] ++ [0, 0, 0, 0, 0, 0, 0, 0] = p ++ [1, 0, 0, 0] ++ q ∧
    ∀ rest, (segmentProgram.codec ⟨true, true⟩ segmentImpls 2 true).dec (p ++ [10, 0, 0, 0] ++ q ++ rest) = .ok (segmentMoved, rest) :=
  C135_read_partial ⟨true, true⟩ segmentProgram segmentImpls (fun _ _ => constEq_trans) segment_readable
    (fun i => by cases i <;> trivial) [1, 0, 0, 0] [10, 0, 0, 0] rfl 2 true segmentValue segmentMoved segment_replaced
    ⟨⟨_, rfl, ⟨_, rfl, trivial⟩, ⟨_, rfl, trivial⟩, rfl⟩, ⟨_, rfl, ⟨_, rfl, trivial⟩, ⟨_, rfl, trivial⟩, rfl⟩, ⟨_, rfl, trivial⟩, rfl⟩ _ (by rfl)

/-- The segment from (3, 2) to (5, -2). -/
def segmentBoth : Values segmentProgram.kind 2 true :=
  ([⟨.ext false, segmentPoint 3 2⟩, ⟨.ext false, segmentPoint 5 (-2)⟩, ⟨.float .f64, (0 : BitVec 64)⟩] : List _)

theorem segment_edited : segmentProgram.Edited ⟨true, true⟩ segmentImpls 2 (.ext true)
    [([1, 0, 0, 0], [10, 0, 0, 0]), ([2, 0, 0, 0], [6, 0, 0, 0])] segmentValue segmentBoth := by
  refine .step segment_replaced (.step ?_ (.refl _))
  refine .ext ⟨rfl, _, [], ⟨.ext false, segmentPoint 1 2⟩, ⟨.ext false, segmentPoint 3 2⟩,
    [⟨.ext false, segmentPoint 5 (-2)⟩, ⟨.float .f64, (0 : BitVec 64)⟩], rfl, rfl, rfl, .inr <| .inl ⟨.inr rfl, _, _, rfl, rfl, ?_⟩⟩
  exact .ext ⟨rfl, _, [], ⟨.int .i32, (1 : BitVec 32)⟩, ⟨.int .i32, (3 : BitVec 32)⟩, [⟨.int .i32, (2 : BitVec 32)⟩], rfl, rfl, rfl,
    .inl ⟨rfl, rfl⟩⟩

/-- Both ends are moved, one after the other, and the segment is read as the one between the new ends. -/
example : ∃ o', Overwritten [([1, 0, 0, 0], [10, 0, 0, 0]), ([2, 0, 0, 0], [6, 0, 0, 0])]
      ([2, 0] ++ [40, 0, 0, 0] ++ [12, 0, 0, 0, 22, 0, 0, 0, 32, 0, 0, 0] ++ [1, 0, 2, 0, 0, 0, 2, 0, 0, 0] ++
        [1, 0, 1, 0, 0, 0, 254, 255, 255, 255] ++ [0, 0, 0, 0, 0, 0, 0, 0]) o' ∧ o'.length = 46 ∧
    ∀ rest, (segmentProgram.codec ⟨true, true⟩ segmentImpls 2 true).dec (o' ++ rest) = .ok (segmentBoth, rest) :=
  C135_many_read_partial ⟨true, true⟩ segmentProgram segmentImpls (fun _ _ => constEq_trans) segment_readable
    (fun i => by cases i <;> trivial) _ (by decide) 2 true segmentValue segmentBoth segment_edited
    ⟨⟨_, rfl, ⟨_, rfl, trivial⟩, ⟨_, rfl, trivial⟩, rfl⟩, ⟨_, rfl, ⟨_, rfl, trivial⟩, ⟨_, rfl, trivial⟩, rfl⟩, ⟨_, rfl, trivial⟩, rfl⟩ _ (by rfl)

/-- The same bytes are what the new segment is serialised to. -/
example : ∃ o', Overwritten [([1, 0, 0, 0], [10, 0, 0, 0]), ([2, 0, 0, 0], [6, 0, 0, 0])]
      ([2, 0] ++ [40, 0, 0, 0] ++ [12, 0, 0, 0, 22, 0, 0, 0, 32, 0, 0, 0] ++ [1, 0, 2, 0, 0, 0, 2, 0, 0, 0] ++
        [1, 0, 1, 0, 0, 0, 254, 255, 255, 255] ++ [0, 0, 0, 0, 0, 0, 0, 0]) o' ∧
    segmentProgram.encode ⟨true, true⟩ segmentImpls 2 (.ext true) segmentBoth = .ok o' ∧ o'.length = 46 :=
  C135_many ⟨true, true⟩ segmentProgram segmentImpls (fun i => by cases i <;> exact ⟨by decide, by decide, by decide⟩)
    (fun i => by cases i <;> trivial) _ (by decide) 2 (.ext true) segmentValue segmentBoth segment_edited _ (by rfl)

/-- `Dashed { shade: Grey(g, 258), on: true }`. -/
def strokeGrey (g : BitVec 8) : Values strokeProgram.kind 2 true :=
  (⟨"Dashed", [⟨.ext false, (⟨"Grey", [⟨.int .u8, g⟩, ⟨.int .u16, (258 : BitVec 16)⟩]⟩ : EnumVal _)⟩, ⟨.bool, true⟩]⟩ : EnumVal _)

theorem stroke_replaced : strokeProgram.Replaced ⟨true, true⟩ strokeImpls [9] [7] 2 (.ext true) (strokeGrey 9) (strokeGrey 7) := by
  refine .ext ⟨rfl, _, .tail _ (.head _), rfl, rfl, fun h => (by cases h), rfl, _, [], _, _, _, rfl, rfl, rfl,
    .inr <| .inl ⟨⟨rfl, rfl⟩, _, _, rfl, rfl, ?_⟩⟩
  exact .ext ⟨rfl, _, .tail _ (.head _), rfl, rfl, fun _ h => (by cases h), rfl, _, [], ⟨.int .u8, (9 : BitVec 8)⟩,
    ⟨.int .u8, (7 : BitVec 8)⟩, _, rfl, rfl, rfl, .inl ⟨by rfl, by rfl⟩⟩

/-- An enum in an enum. -/
example : ∃ p q, [1, 0, 1, 0, 0, 0] ++ [1, 0, 33, 9, 2, 1] ++ [1] = p ++ [9] ++ q ∧
    strokeProgram.encode ⟨true, true⟩ strokeImpls 2 (.ext true) (strokeGrey 7) = .ok (p ++ [7] ++ q) :=
  C135_in_place ⟨true, true⟩ strokeProgram strokeImpls (fun i => by cases i <;> exact ⟨by decide, by decide, by decide⟩)
    stroke_accepted [9] [7] rfl 2 (.ext true) (strokeGrey 9) (strokeGrey 7) stroke_replaced
    ([1, 0, 1, 0, 0, 0] ++ [1, 0, 33, 9, 2, 1] ++ [1]) (by decide +kernel)

/-- The segment from (1, 2) to (1000, -2). -/
def segmentFar : Values segmentProgram.kind 2 true :=
  ([⟨.ext false, segmentPoint 1 2⟩, ⟨.ext false, segmentPoint 1000 (-2)⟩, ⟨.float .f64, (0 : BitVec 64)⟩] : List _)

/-- With variable-length integers it differs from the segment to (-1, -2) in `to.x` too, which then takes three bytes and not one. -/
theorem segment_resized : segmentProgram.Replaced Cfg.default segmentImpls [1] [251, 208, 7] 2 (.ext true) segmentValue
    segmentFar := by
  refine .ext ⟨rfl, _, [⟨.ext false, segmentPoint 1 2⟩], ⟨.ext false, segmentPoint (-1) (-2)⟩, ⟨.ext false, segmentPoint 1000 (-2)⟩,
    [⟨.float .f64, (0 : BitVec 64)⟩], rfl, rfl, rfl, .inr <| .inl ⟨.inr rfl, _, _, rfl, rfl, ?_⟩⟩
  exact .ext ⟨rfl, _, [], ⟨.int .i32, (-1 : BitVec 32)⟩, ⟨.int .i32, (1000 : BitVec 32)⟩, [⟨.int .i32, (-2 : BitVec 32)⟩], rfl, rfl, rfl,
    .inl ⟨rfl, rfl⟩⟩

/-- C135: with an optimised revision the sizes must agree: wherever in the record the bytes of the part are replaced by longer ones, the
result is not the record of the new value, as the offsets and the length before the part differ. -/
theorem C135_optimised_resized : ∃ (P : Program Bool) (I : Impls P.kind) (b b' : Bytes) (v v' : Values P.kind 2 true) (o : Bytes),
    P.Replaced Cfg.default I b b' 2 (.ext true) v v' ∧ P.encode Cfg.default I 2 (.ext true) v = .ok o ∧
    ¬ ∃ p q, o = p ++ b ++ q ∧ P.encode Cfg.default I 2 (.ext true) v' = .ok (p ++ b' ++ q) := by
  have hv : segmentProgram.encode Cfg.default segmentImpls 2 (.ext true) segmentValue =
    .ok ([2] ++ [32, 0, 0, 0] ++ [12, 0, 0, 0, 18, 0, 0, 0, 24, 0, 0, 0] ++ [1, 2, 2, 0, 0, 0] ++ [1, 1, 254, 255, 255, 255] ++
      [0, 0, 0, 0, 0, 0, 0, 0]) := by rfl
  have hv' : segmentProgram.encode Cfg.default segmentImpls 2 (.ext true) segmentFar =
    .ok ([2] ++ [34, 0, 0, 0] ++ [12, 0, 0, 0, 18, 0, 0, 0, 26, 0, 0, 0] ++ [1, 2, 2, 0, 0, 0] ++
      [1, 251, 208, 7, 254, 255, 255, 255] ++ [0, 0, 0, 0, 0, 0, 0, 0]) := by rfl
  refine ⟨segmentProgram, segmentImpls, [1], [251, 208, 7], segmentValue, segmentFar, _, segment_resized, hv, ?_⟩
  rintro ⟨p, q, h, h'⟩
  have h' := Res.ok.inj (hv'.symm.trans h')
  match p, h, h' with
  | [], h, _ => cases h
  | [_], _, h' => cases h'
  | _ :: _ :: _, h, h' => 
    injection h with h1 h2; injection h2 with h2 h3
    injection h' with h1' h2'; injection h2' with h2' h3'
    exact absurd (h2.trans h2'.symm) (by decide)

/-- It is as much longer as the part, though. -/
example (o o' : Bytes) (ho : segmentProgram.encode Cfg.default segmentImpls 2 (.ext true) segmentValue = .ok o)
    (ho' : segmentProgram.encode Cfg.default segmentImpls 2 (.ext true) segmentFar = .ok o') : (o'.length : Int) - o.length = 3 - 1 :=
  C135_size Cfg.default segmentProgram segmentImpls (fun i => by cases i <;> exact ⟨by decide, by decide, by decide⟩)
    (fun i => by cases i <;> trivial) [1] [251, 208, 7] 2 (.ext true) segmentValue segmentFar segment_resized o o' ho ho'

/-- As many bytes precede the coordinate (though others) and the same follow it. -/
example : ∃ p p' q : Bytes,
    [2] ++ [32, 0, 0, 0] ++ [12, 0, 0, 0, 18, 0, 0, 0, 24, 0, 0, 0] ++ [1, 2, 2, 0, 0, 0] ++ [1, 1, 254, 255, 255, 255] ++
      [0, 0, 0, 0, 0, 0, 0, 0] = p ++ [1] ++ q ∧
    [2] ++ [34, 0, 0, 0] ++ [12, 0, 0, 0, 18, 0, 0, 0, 26, 0, 0, 0] ++ [1, 2, 2, 0, 0, 0] ++ [1, 251, 208, 7, 254, 255, 255, 255] ++
      [0, 0, 0, 0, 0, 0, 0, 0] = p' ++ [251, 208, 7] ++ q ∧ p.length = p'.length :=
  C135_behind Cfg.default segmentProgram segmentImpls (fun i => by cases i <;> exact ⟨by decide, by decide, by decide⟩)
    (fun i => by cases i <;> trivial) [1] [251, 208, 7] 2 (.ext true) segmentValue segmentFar segment_resized _ _ (by rfl) (by rfl)

/-- The two segments are not serialised to the same bytes. -/
example (o : Bytes) (ho : segmentProgram.encode Cfg.default segmentImpls 2 (.ext true) segmentValue = .ok o) :
    segmentProgram.encode Cfg.default segmentImpls 2 (.ext true) segmentFar ≠ .ok o := fun h =>
  absurd ((C135_distinct Cfg.default segmentProgram segmentImpls (fun i => by cases i <;> exact ⟨by decide, by decide, by decide⟩)
    (fun i => by cases i <;> trivial) [1] [251, 208, 7] 2 (.ext true) segmentValue segmentFar segment_resized o ho).1 h) (by decide)

/-- The types of `segmentProgram` before the optimised revision. -/
def flatProgram : Program Bool := { segmentProgram with history := fun _ => [⟨1, false, false⟩] }

def flatValue (x : BitVec 32) : Values flatProgram.kind 2 true :=
  ([⟨.ext false, segmentPoint 1 2⟩, ⟨.ext false, segmentPoint x (-2)⟩] : List _)

theorem flat_replaced (x y : BitVec 32) (b b' : Bytes) (hb : (intC Cfg.default .i32).enc x = .ok b)
    (hb' : (intC Cfg.default .i32).enc y = .ok b') :
    flatProgram.Replaced Cfg.default segmentImpls b b' 2 (.ext true) (flatValue x) (flatValue y) :=
  .ext ⟨rfl, _, [⟨.ext false, segmentPoint 1 2⟩], ⟨.ext false, segmentPoint x (-2)⟩, ⟨.ext false, segmentPoint y (-2)⟩,
    [], rfl, rfl, rfl, .inr <| .inl ⟨⟨rfl, rfl⟩, _, _, rfl, rfl, .ext ⟨rfl, _, [], ⟨.int .i32, x⟩,
      ⟨.int .i32, y⟩, [⟨.int .i32, (-2 : BitVec 32)⟩], rfl, rfl, rfl, .inl ⟨hb, hb'⟩⟩⟩⟩

/-- In the legacy format the longer coordinate only moves what follows it. -/
example : ∃ p q, [1, 1, 2, 2, 0, 0, 0, 1, 1, 254, 255, 255, 255] = p ++ [1] ++ q ∧
    flatProgram.encode Cfg.default segmentImpls 2 (.ext true) (flatValue 1000) = .ok (p ++ [251, 208, 7] ++ q) :=
  C135_resized Cfg.default flatProgram segmentImpls (fun i => by cases i <;> exact ⟨by decide, by decide, by decide⟩)
    (fun i => by cases i <;> trivial) (fun _ => rfl) [1] [251, 208, 7] 2 (.ext true) (flatValue (-1)) (flatValue 1000)
    (.ext ⟨rfl, _, [⟨.ext false, segmentPoint 1 2⟩], ⟨.ext false, segmentPoint (-1) (-2)⟩, ⟨.ext false, segmentPoint 1000 (-2)⟩,
      [], rfl, rfl, rfl, .inr <| .inl ⟨⟨rfl, rfl⟩, _, _, rfl, rfl, .ext ⟨rfl, _, [], ⟨.int .i32, (-1 : BitVec 32)⟩,
        ⟨.int .i32, (1000 : BitVec 32)⟩, [⟨.int .i32, (-2 : BitVec 32)⟩], rfl, rfl, rfl, .inl ⟨rfl, rfl⟩⟩⟩⟩) _ (by rfl)

/-- Two changes in a row, to three bytes and back to one: the size is what it was. -/
example : ∃ o', Overwritten [([1], [251, 208, 7]), ([251, 208, 7], [10])] [1, 1, 2, 2, 0, 0, 0, 1, 1, 254, 255, 255, 255] o' ∧
    flatProgram.encode Cfg.default segmentImpls 2 (.ext true) (flatValue 5) = .ok o' ∧ o'.length + 4 = 17 :=
  C135_many_resized Cfg.default flatProgram segmentImpls (fun i => by cases i <;> exact ⟨by decide, by decide, by decide⟩)
    (fun i => by cases i <;> trivial) (fun _ => rfl) _ 2 (.ext true) (flatValue (-1)) (flatValue 5)
    (.step (flat_replaced (-1) 1000 _ _ rfl rfl) (.step (flat_replaced 1000 5 _ _ rfl rfl) (.refl _))) _ (by rfl)

/-- ```
#[revisioned(revision(1), optimised)]
struct Tones { #[revision(indexed_seq)] tones: Vec<u16>, #[revision(indexed_map)] names: BTreeMap<u8, u16> }
```
-/
def tonesProgram : Program Unit where
  kind _ := .struct
  history _ := [⟨1, true, false⟩]
  body _ := .struct [
    ⟨"tones", { indexedSeq := true }, .vec (.int .u16), fun _ _ => .panic, fun _ _ _ v => .ok v⟩,
    ⟨"names", { indexedMap := true }, .btreeMap (.int .u8) (.int .u16), fun _ _ => .panic, fun _ _ _ v => .ok v⟩]

def tonesValue (a b : BitVec 16) : Values tonesProgram.kind 1 () :=
  ([⟨.vec (.int .u16), ([7, a] : List (BitVec 16))⟩,
    ⟨.btreeMap (.int .u8) (.int .u16), ([(1, 300), (2, b)] : List (BitVec 8 × BitVec 16))⟩] : List _)

/-- It serialises. -/
theorem tones_written (I : Impls tonesProgram.kind) : tonesProgram.encode Cfg.default I 1 (.ext ()) (tonesValue 300 5) =
    .ok ([1] ++ [14, 0, 0, 0] ++ [0, 2, 7, 251, 44, 1] ++ [0, 2, 1, 251, 44, 1, 2, 5]) := by
  refine (C48_layout Cfg.default [⟨1, true, false⟩] ⟨by decide, by decide, by decide⟩ _ _ rfl _).2
    ⟨[[0, 2, 7, 251, 44, 1], [0, 2, 1, 251, 44, 1, 2, 5]], .cons (by rfl) (.cons ?_ .nil), by decide, by rfl⟩
  exact C72_map (Ty.codec Cfg.default (I.env 0 (tonesProgram.codec Cfg.default I 0)) (.int .u8))
    (Ty.codec Cfg.default (I.env 0 (tonesProgram.codec Cfg.default I 0)) (.int .u16))
    ([(1, 300), (2, 5)] : List (BitVec 8 × BitVec 16)) [[1], [2]] [[251, 44, 1], [5]] (by rfl) (by show [Res.ok (encInt Cfg.default .u16 300), Res.ok (encInt Cfg.default .u16 5)] = _; decide +kernel)
    [([1], [251, 44, 1]), ([2], [5])] (.refl _) (by unfold Ascending; decide) (by simp) (by simp)

/-- An element of an indexed sequence, … -/
example (I : Impls tonesProgram.kind) :
    ∃ p q, [1] ++ [14, 0, 0, 0] ++ [0, 2, 7, 251, 44, 1] ++ [0, 2, 1, 251, 44, 1, 2, 5] = p ++ [251, 44, 1] ++ q ∧
      tonesProgram.encode Cfg.default I 1 (.ext ()) (tonesValue 400 5) = .ok (p ++ [251, 144, 1] ++ q) :=
  C135_in_place Cfg.default tonesProgram I (fun i => by cases i; exact ⟨by decide, by decide, by decide⟩) (fun _ => trivial) [251, 44, 1] [251, 144, 1] rfl 1
    (.ext ()) (tonesValue 300 5) (tonesValue 400 5) (.ext ⟨rfl, _, [], _, _, _, rfl, rfl, rfl, .inr <| .inr ⟨⟨rfl, rfl⟩, _, _, rfl, rfl,
      [7], [], (300 : BitVec 16), (400 : BitVec 16), rfl, rfl, .part ⟨rfl, rfl⟩⟩⟩) _ (tones_written I)

/-- … and the value of an entry of an indexed map. -/
example (I : Impls tonesProgram.kind) :
    ∃ p q, [1] ++ [14, 0, 0, 0] ++ [0, 2, 7, 251, 44, 1] ++ [0, 2, 1, 251, 44, 1, 2, 5] = p ++ [5] ++ q ∧ tonesProgram.encode Cfg.default I 1 (.ext ()) (tonesValue 300 6) = .ok (p ++ [6] ++ q) :=
  C135_in_place Cfg.default tonesProgram I (fun i => by cases i; exact ⟨by decide, by decide, by decide⟩) (fun _ => trivial) [5] [6] rfl 1 (.ext ())
    (tonesValue 300 5) (tonesValue 300 6) (.ext ⟨rfl, _, [_], _, _, _, rfl, rfl, rfl, .inr <| .inr ⟨⟨rfl, rfl⟩, _, _, rfl, rfl,
      [((1 : BitVec 8), (300 : BitVec 16))], [], (2 : BitVec 8), (5 : BitVec 16), (6 : BitVec 16), rfl, rfl, .part ⟨rfl, rfl⟩⟩⟩) _ (tones_written I)

end Revision
