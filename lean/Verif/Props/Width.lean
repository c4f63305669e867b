import Verif.Proofs.Width
import Verif.Props.DeriveEnum
import Verif.Props.Program
import Verif.Spec.Demo

/-!
# Property C122: what the cargo feature `fixed-width-encoding` changes

Spec: `Spec/Width.lean` (`Ty.width`, the bytes every value of a type takes; `structOverhead`, the bytes a struct adds; `variantBytes`, the bytes of an enum;
`Ty.widthFree`, the types without integers, tags and counts).  `⟨true, sp⟩` is the crate built with the feature,
`⟨false, sp⟩` without; `sp` is the other feature, `specialised-vectors`.
-/

namespace Revision

variable {ι : Type}

/-- C122: with the feature a type has one size or it does not, and which is known from the type alone: if `Ty.width`
is `some n` then every value takes `n` bytes, and if it is `none` two values take different numbers of bytes. -/
theorem C122_width (sp : Bool) (E : Env ι) (X : ι → Option Nat)
    (hx : ∀ i, AllTake (E.extC i).valid (E.extC i).enc (X i)) (t : Ty ι) :
    AllTake (t.WF E) (t.codec ⟨true, sp⟩ E).toVec (t.width X) :=
  t.allTake sp E X hx

/-- A timestamped reading, `((u32, i64), Result<[u16; 3], (u32, u16)>)`, takes 22 bytes whatever is in it. -/
example : (Ty.pair (.pair (.int .u32) (.int .i64)) (.result (.array 3 (.int .u16)) (.pair (.int .u32) (.int .u16))) :
    Ty Empty).width (fun i => nomatch i) = some 22 ∧
    ((Ty.pair (.pair (.int .u32) (.int .i64)) (.result (.array 3 (.int .u16)) (.pair (.int .u32) (.int .u16)))).codec
      ⟨true, true⟩ demoEnv).toVec ((7, -1), .error (1, 2)) =
      .ok ([7, 0, 0, 0, 1, 0, 0, 0, 0, 0, 0, 0] ++ [1, 0, 0, 0, 1, 0, 0, 0, 2, 0]) := ⟨by decide, by decide +kernel⟩

example (v : (Ty.pair (.pair (.int .u32) (.int .i64)) (.result (.array 3 (.int .u16)) (.pair (.int .u32) (.int .u16)))).denote
    demoEnv.X) (h : Ty.WF demoEnv _ v) : ∃ b, (Ty.codec ⟨true, true⟩ demoEnv _).toVec v = .ok b ∧ b.length = 22 :=
  (C122_width true demoEnv (fun i => nomatch i) (fun i => nomatch i)
    (.pair (.pair (.int .u32) (.int .i64)) (.result (.array 3 (.int .u16)) (.pair (.int .u32) (.int .u16))))).2 v h

/-- Options have no one size, nor have strings; without the feature integers have not either. -/
example : (Ty.option (.int .u32) : Ty Empty).width (fun i => nomatch i) = none ∧
    (Ty.pair .string .bool : Ty Empty).width (fun i => nomatch i) = none ∧
    ((Ty.int .u32).codec ⟨false, true⟩ demoEnv).toVec (7 : BitVec 32) = .ok [7] ∧
    ((Ty.int .u32).codec ⟨false, true⟩ demoEnv).toVec (700 : BitVec 32) = .ok [251, 188, 2] :=
  ⟨by decide, by decide, by decide +kernel, by decide +kernel⟩

example : ∃ v w b c, (Ty.option (.int .u32)).WF demoEnv v ∧ (Ty.option (.int .u32)).WF demoEnv w ∧
    ((Ty.option (.int .u32)).codec ⟨true, true⟩ demoEnv).toVec v = .ok b ∧
    ((Ty.option (.int .u32)).codec ⟨true, true⟩ demoEnv).toVec w = .ok c ∧ b.length ≠ c.length :=
  C122_width true demoEnv (fun i => nomatch i) (fun i => nomatch i) (.option (.int .u32))

/-- C122: a derived struct all of whose fields have a size takes their sum, 2 bytes for the revision and, for the
optimised encoding, 4 for the length and 4 for the offset of each field. -/
theorem C122_struct {V : Type} (sp : Bool) (h : List Entry) (hh : ValidHistory h) (fs : List (FieldDecl V))
    (size : FieldDecl V → Nat)
    (hs : ∀ f ∈ aliveFields fs h.length, ∀ v b, (f.wire (lastEntry h)).valid v → (f.wire (lastEntry h)).toVec v = .ok b →
      b.length = size f)
    (vs : List V) (hv : (structC ⟨true, sp⟩ h fs).valid vs) (out : Bytes) (ho : (structC ⟨true, sp⟩ h fs).toVec vs = .ok out) :
    out.length = structOverhead (lastEntry h) (aliveFields fs h.length).length +
      ((aliveFields fs h.length).map size).sum := by
  unfold structC at hv
  dsimp only at hv
  rw [hh.latest_eq] at hv
  have hv := (validFields_iff _ _).1 hv
  have len : ∀ {c : FieldDecl V → Codec V} {fs vs}, AllValid c fs vs → vs.length = fs.length := by
    intro c fs vs h
    induction h with
    | nil => rfl
    | cons _ _ ih => rw [List.length_cons, List.length_cons, ih]
  obtain ⟨bs, he, _, rfl⟩ := (C48_layout _ h hh fs vs (len hv) out).1 ho
  have key : ∀ {fs vs bs}, AllValid (fun f => f.wire (lastEntry h)) fs vs → Encodes (fun f => f.wire (lastEntry h)) fs vs bs →
      (∀ f ∈ fs, ∀ v b, (f.wire (lastEntry h)).valid v → (f.wire (lastEntry h)).toVec v = .ok b → b.length = size f) →
      bs.length = fs.length ∧ bs.flatten.length = (fs.map size).sum := by
    intro fs vs bs hv he hs
    induction he with
    | nil => exact ⟨rfl, rfl⟩
    | cons hb _ ih =>
      cases hv with
      | cons hx hv =>
        obtain ⟨h1, h2⟩ := ih hv fun f hf => hs f (.tail _ hf)
        refine ⟨by rw [List.length_cons, List.length_cons, h1], ?_⟩
        rw [List.flatten_cons, List.length_append, h2, hs _ (.head _) _ _ hx hb, List.map_cons, List.sum_cons]
  obtain ⟨h1, h2⟩ := key hv he hs
  rw [List.length_append, encU16_width, structLayout_length, h1, h2]

/-- The type `#[revisioned(revision(1))] struct Rgb { r: u8, g: u8, b: u8 }`. -/
def rgbFields (cfg : Cfg) : List (FieldDecl (Dyn demoEnv)) :=
  [tyField cfg demoEnv "r" {} (.int .u8) (fun _ => .panic) (fun _ _ l => .ok l),
   tyField cfg demoEnv "g" {} (.int .u8) (fun _ => .panic) (fun _ _ l => .ok l),
   tyField cfg demoEnv "b" {} (.int .u8) (fun _ => .panic) (fun _ _ l => .ok l)]

def rgb (r g b : BitVec 8) : List (Dyn demoEnv) := [⟨.int .u8, r⟩, ⟨.int .u8, g⟩, ⟨.int .u8, b⟩]

/-- Any colour written with the feature takes five bytes. -/
example (vs : List (Dyn demoEnv)) (out : Bytes)
    (hv : (structC ⟨true, true⟩ [⟨1, false, false⟩] (rgbFields ⟨true, true⟩)).valid vs)
    (ho : (structC ⟨true, true⟩ [⟨1, false, false⟩] (rgbFields ⟨true, true⟩)).toVec vs = .ok out) : out.length = 5 := by
  have := C122_struct true [⟨1, false, false⟩] ⟨by decide, by decide, by decide⟩ (rgbFields ⟨true, true⟩) (fun _ => 1)
    (fun f hf v b hv hb => ?_) vs hv out ho
  · exact this
  · have hf : f ∈ rgbFields ⟨true, true⟩ := (List.mem_filter.1 hf).1
    have key : ∀ name, Takes ((tyField ⟨true, true⟩ demoEnv name {} (.int .u8) (fun _ => .panic) (fun _ _ l => .ok l)).wire
        ⟨1, false, false⟩).valid ((tyField ⟨true, true⟩ demoEnv name {} (.int .u8) (fun _ => .panic)
          (fun _ _ l => .ok l)).wire ⟨1, false, false⟩).enc 1 := fun name =>
      dynC_takes (c := (Ty.int .u8).codec ⟨true, true⟩ demoEnv) fun v b _ hb => by cases hb; exact encInt_width true .u8 v
    simp only [rgbFields, List.mem_cons, List.not_mem_nil, or_false] at hf
    rcases hf with rfl | rfl | rfl <;> exact key _ v b hv hb

/-- C122: a value of a derived enum takes what its variant takes: 2 bytes for the revision, then 4 for the discriminant and what the
fields take; in the optimised encoding 1 for the tag, then nothing (`inline`), the declared size (`fixed`), or 4 for the length and what
the fields take (`varlen`). -/
theorem C122_enum {V : Type} (sp : Bool) (h : List Entry) (hh : ValidHistory h) (vs : List (VariantDecl V))
    (hA : AcceptedEnum (lastEntry h) vs) (v : VariantDecl V) (hm : v ∈ vs) (ha : v.existsAt h.length = true)
    (size : FieldDecl V → Nat)
    (hs : ((lastEntry h).optimised = true → v.opts.size.getD .inline = .varlen) → ∀ f ∈ aliveFields v.fields h.length, ∀ x b, (f.variantWire (lastEntry h)).valid x →
      (f.variantWire (lastEntry h)).toVec x = .ok b → b.length = size f)
    (xs : List V) (hv : (enumC ⟨true, sp⟩ h vs).valid ⟨v.ident, xs⟩) (out : Bytes)
    (ho : (enumC ⟨true, sp⟩ h vs).toVec ⟨v.ident, xs⟩ = .ok out) :
    out.length = variantBytes (lastEntry h) (v.opts.size.getD .inline) ((aliveFields v.fields h.length).map size).sum := by
  refine enumC_takes sp h hh vs hA v hm ha xs hv _ (fun hz bs hv he => ?_) out ho
  exact encodes_sum hv he (hs hz)

/-- The type `#[revisioned(revision(1))] enum Answer { No, Yes(u8) }`. -/
def answerVariants (cfg : Cfg) : List (VariantDecl (Dyn demoEnv)) :=
  [⟨"No", {}, [], fun _ _ => .panic⟩,
   ⟨"Yes", {}, [tyField cfg demoEnv "field_0" {} (.int .u8) (fun _ => .panic) (fun _ _ l => .ok l)], fun _ _ => .panic⟩]

theorem answer_accepted : AcceptedEnum ⟨1, false, false⟩ (answerVariants ⟨true, true⟩) := by
  refine ⟨by unfold DistinctVariants; decide, ⟨[("Yes", 1), ("No", 0)], rfl, fun n d h => ?_⟩, fun h => by cases h⟩
  have := mem_of_lookup_eq_some _ _ _ h
  simp only [List.mem_cons, Prod.mk.injEq, List.not_mem_nil, or_false] at this
  omega

/-- Any `Yes` takes seven bytes. -/
example (xs : List (Dyn demoEnv)) (out : Bytes)
    (hv : (enumC ⟨true, true⟩ [⟨1, false, false⟩] (answerVariants ⟨true, true⟩)).valid ⟨"Yes", xs⟩)
    (ho : (enumC ⟨true, true⟩ [⟨1, false, false⟩] (answerVariants ⟨true, true⟩)).toVec ⟨"Yes", xs⟩ = .ok out) : out.length = 7 := by
  refine C122_enum true [⟨1, false, false⟩] ⟨by decide, by decide, by decide⟩ _ answer_accepted
    (answerVariants ⟨true, true⟩)[1] (.tail _ (.head _)) rfl (fun _ => 1) (fun _ f hf x b hv hb => ?_) xs hv out ho
  rcases List.mem_singleton.1 (List.mem_filter.1 hf).1 with rfl
  exact dynC_takes (c := (Ty.int .u8).codec ⟨true, true⟩ demoEnv) (n := 1)
    (fun v b _ hb => by cases hb; exact encInt_width true .u8 v) x b hv hb

example : (enumC ⟨true, true⟩ [⟨1, false, false⟩] (answerVariants ⟨true, true⟩)).toVec ⟨"Yes", [⟨.int .u8, (5 : BitVec 8)⟩]⟩ =
    .ok [1, 0, 1, 0, 0, 0, 5] ∧
    (enumC ⟨true, true⟩ [⟨1, false, false⟩] (answerVariants ⟨true, true⟩)).toVec ⟨"No", []⟩ = .ok [1, 0, 0, 0, 0, 0] :=
  ⟨by decide +kernel, by decide +kernel⟩

/-- C122: and so for the types of a program, however they are nested: sizes that agree with the declarations are the
sizes of the data.  `w i = none` claims nothing about type `i`. -/
theorem C122_program [DecidableEq ι] (sp : Bool) (P : Program ι) (I : Impls P.kind) (hh : ∀ i, ValidHistory (P.history i))
    (hA : ∀ i, (P.body i).Accepted (lastEntry (P.history i))) (w : ι → Option Nat) (hw : P.Widths w) : ∀ (n : Nat) (i : ι) (m : Nat), w i = some m →
    ∀ (v : Values P.kind n i) (b : Bytes), (P.codec ⟨true, sp⟩ I n i).valid v → (P.codec ⟨true, sp⟩ I n i).toVec v = .ok b →
      b.length = m
  | 0, _, _, _ => fun v => nomatch v
  | n + 1, i, m, hm => by
    have step : ∀ {k : Kind} (B : Body P.kind k) (h : List Entry), ValidHistory h → B.Accepted (lastEntry h) → B.width w h = some m →
        ∀ v b, (Body.codec ⟨true, sp⟩ I n (P.codec ⟨true, sp⟩ I n) h B).valid v →
          (Body.codec ⟨true, sp⟩ I n (P.codec ⟨true, sp⟩ I n) h B).enc v = .ok b → b.length = m := by
      intro k B h hvh hB' hB v b hv hb
      cases B with
      | enum vs =>
        unfold Body.codec at hv hb
        have hE : AcceptedEnum (lastEntry h) (vs.map (·.decl ⟨true, sp⟩ I n (P.codec ⟨true, sp⟩ I n))) :=
          accepted_decl _ I n _ hB'
        obtain ⟨d, u, hm, hi, _⟩ := id hv
        obtain ⟨hm, ha, _⟩ := mem_variantArms.1 hm
        rw [hvh.lastEntry_revision] at ha
        obtain ⟨u, hu, rfl⟩ := List.mem_map.1 hm
        have hw' := same_some hB _ (List.mem_map.2 ⟨u, List.mem_filter.2 ⟨hu, ha⟩, rfl⟩)
        rcases v with ⟨name, xs⟩
        cases hi
        unfold Variant.width at hw'
        simp only at hw'
        have key := fun k hk => enumC_takes sp h hvh _ hE _ hm ha xs hv k hk b hb
        split at hw'
        · rename_i hz
          rw [Bool.and_eq_true, bne_iff_ne] at hz
          cases hw'
          exact key 0 fun h => absurd (h hz.1) hz.2
        · obtain ⟨k, hk, rfl⟩ := Option.map_eq_some_iff.1 hw'
          refine key k fun _ bs hv he => ?_
          have e : (u.decl ⟨true, sp⟩ I n (P.codec ⟨true, sp⟩ I n)).fields = u.fields.map (·.decl ⟨true, sp⟩ I n (P.codec ⟨true, sp⟩ I n)) :=
            rfl
          rw [e, alive_decl] at hv he
          exact Field.variantWidths_takes sp I n _ w (fun i m hm v b => C122_program sp P I hh hA w hw n i m hm v b) (lastEntry h) _ k
            hk xs bs hv he
      | foreign x => cases hB
      | struct fs =>
        obtain ⟨x, y, hx, hy, rfl⟩ := both_some hB
        cases hx
        unfold Body.codec at hv hb
        unfold structC at hv
        dsimp only at hv
        rw [hvh.latest_eq] at hv
        have hv := (validFields_iff _ _).1 hv
        have len : ∀ {c : FieldDecl (DynAt P.kind n) → Codec (DynAt P.kind n)} {fs vs}, AllValid c fs vs →
            vs.length = fs.length := by
          intro c fs vs h
          induction h with
          | nil => rfl
          | cons _ _ ih => rw [List.length_cons, List.length_cons, ih]
        obtain ⟨bs, he, _, rfl⟩ := (C48_layout _ h hvh _ v (len hv) b).1 hb
        rw [alive_decl] at hv he
        obtain ⟨h1, h2⟩ := Field.widths_takes sp I n _ w (fun i m hm v b => C122_program sp P I hh hA w hw n i m hm v b)
          (lastEntry h) _ y hy v bs hv he
        rw [List.length_append, encU16_width, structLayout_length, h1, h2]
    exact step (P.body i) (P.history i) (hh i) (hA i) (hw i m hm)

/-- ```
#[revisioned(revision(1))]
struct Point { x: i32, y: i32 }
#[revisioned(revision(1), revision(2, optimised, indexed_struct))]
struct Segment { from: Point, to: Point, #[revision(start = 2)] weight: f64 }
``` -/
def segmentProgram : Program Bool where
  kind _ := .struct
  history | true => [⟨1, false, false⟩, ⟨2, true, true⟩] | false => [⟨1, false, false⟩]
  body
    | true => .struct [
        ⟨"from", {}, .ext false, fun _ _ => .panic, fun _ _ _ v => .ok v⟩,
        ⟨"to", {}, .ext false, fun _ _ => .panic, fun _ _ _ v => .ok v⟩,
        ⟨"weight", { start := some 2 }, .float .f64, fun _ _ => .ok (0 : BitVec 64), fun _ _ _ v => .ok v⟩]
    | false => .struct [
        ⟨"x", {}, .int .i32, fun _ _ => .ok (0 : BitVec 32), fun _ _ _ v => .ok v⟩,
        ⟨"y", { fixed := true }, .int .i32, fun _ _ => .ok (0 : BitVec 32), fun _ _ _ v => .ok v⟩]

/-- 2 + 4 + 4 for a point; 2 + 4 + 3·4 and 10 + 10 + 8 for a segment. -/
def segmentWidths : Bool → Option Nat
  | true => some 46
  | false => some 10

theorem segmentWidths_ok : segmentProgram.Widths segmentWidths := by
  intro i m hm
  cases i <;> cases hm <;> rfl

example (sp : Bool) (I : Impls segmentProgram.kind) (n : Nat) (v : Values segmentProgram.kind n true) (b : Bytes)
    (hv : (segmentProgram.codec ⟨true, sp⟩ I n true).valid v)
    (hb : (segmentProgram.codec ⟨true, sp⟩ I n true).toVec v = .ok b) : b.length = 46 :=
  C122_program sp segmentProgram I (fun i => by cases i <;> exact ⟨by decide, by decide, by decide⟩)
    (fun i => by cases i <;> trivial) segmentWidths
    segmentWidths_ok n true 46 rfl v b hv hb

/-- ```
#[revisioned(revision(1, optimised))]
enum Shade {
    #[revision(size = "fixed(3)")] Rgb([u8; 3]),
    #[revision(size = "fixed(3)")] Grey(u8, u16),
}
#[revisioned(revision(1))]
enum Stroke { Solid(Shade, u8), Dashed { shade: Shade, on: bool } }
``` -/
def strokeProgram : Program Bool where
  kind _ := .enum
  history | true => [⟨1, false, false⟩] | false => [⟨1, true, false⟩]
  body
    | true => .enum [
        ⟨"Solid", {}, [⟨"field_0", {}, .ext false, fun _ _ => .panic, fun _ _ _ v => .ok v⟩,
          ⟨"field_1", {}, .int .u8, fun _ _ => .panic, fun _ _ _ v => .ok v⟩], fun _ _ _ => .panic⟩,
        ⟨"Dashed", {}, [⟨"shade", {}, .ext false, fun _ _ => .panic, fun _ _ _ v => .ok v⟩,
          ⟨"on", {}, .bool, fun _ _ => .panic, fun _ _ _ v => .ok v⟩], fun _ _ _ => .panic⟩]
    | false => .enum [
        ⟨"Rgb", { size := some (.fixed 3) }, [⟨"field_0", {}, .array 3 (.int .u8), fun _ _ => .panic, fun _ _ _ v => .ok v⟩],
          fun _ _ _ => .panic⟩,
        ⟨"Grey", { size := some (.fixed 3) }, [⟨"field_0", {}, .int .u8, fun _ _ => .panic, fun _ _ _ v => .ok v⟩,
          ⟨"field_1", {}, .int .u16, fun _ _ => .panic, fun _ _ _ v => .ok v⟩], fun _ _ _ => .panic⟩]

/-- 2 + 1 + 3 for a shade; 2 + 4 and 6 + 1 for a stroke. -/
def strokeWidths : Bool → Option Nat
  | true => some 13
  | false => some 6

theorem strokeWidths_ok : strokeProgram.Widths strokeWidths := by
  intro i m hm
  cases i <;> cases hm <;> rfl

theorem stroke_accepted : ∀ i, (strokeProgram.body i).Accepted (lastEntry (strokeProgram.history i)) := by
  intro i
  have hlt : ∀ (a b n : String) (d : Nat), List.lookup n [(a, 1), (b, 0)] = some d → d < 2 ^ 32 := by
    intro a b n d h
    have := mem_of_lookup_eq_some _ _ _ h
    simp only [List.mem_cons, Prod.mk.injEq, List.not_mem_nil, or_false] at this
    omega
  cases i
  · exact ⟨by unfold DistinctVariants; decide, ⟨[("Grey", 1), ("Rgb", 0)], rfl, hlt _ _⟩, fun _ => rfl⟩
  · exact ⟨by unfold DistinctVariants; decide, ⟨[("Dashed", 1), ("Solid", 0)], rfl, hlt _ _⟩, fun h => by cases h⟩

example (sp : Bool) (I : Impls strokeProgram.kind) (n : Nat) (v : Values strokeProgram.kind n true) (b : Bytes)
    (hv : (strokeProgram.codec ⟨true, sp⟩ I n true).valid v)
    (hb : (strokeProgram.codec ⟨true, sp⟩ I n true).toVec v = .ok b) : b.length = 13 :=
  C122_program sp strokeProgram I (fun i => by cases i <;> exact ⟨by decide, by decide, by decide⟩) stroke_accepted strokeWidths
    strokeWidths_ok n true 13 rfl v b hv hb

def strokeImpls : Impls strokeProgram.kind where
  cap := fun _ n => decide (n ≤ 2 ^ 40)
  cmp := fun _ _ _ _ => .eq
  eq := fun _ _ _ _ => true

/-- `Dashed { shade: Grey(9, 258), on: true }`. -/
example : (strokeProgram.codec ⟨true, true⟩ strokeImpls 2 true).toVec
      (⟨"Dashed", [⟨.ext false, (⟨"Grey", [⟨.int .u8, (9 : BitVec 8)⟩, ⟨.int .u16, (258 : BitVec 16)⟩]⟩ : EnumVal _)⟩,
        ⟨.bool, true⟩]⟩ : EnumVal _) =
    .ok ([1, 0, 1, 0, 0, 0] ++ [1, 0, 33, 9, 2, 1] ++ [1]) := by
  decide +kernel

/-- The rest of the demonstration. -/
def segmentImpls : Impls segmentProgram.kind where
  cap := fun _ n => decide (n ≤ 2 ^ 40)
  cmp := fun _ _ _ _ => .eq
  eq := fun _ _ _ _ => true

def segmentPoint (x y : BitVec 32) : Values segmentProgram.kind 1 false := ([⟨.int .i32, x⟩, ⟨.int .i32, y⟩] : List _)

def segmentValue : Values segmentProgram.kind 2 true :=
  ([⟨.ext false, segmentPoint 1 2⟩, ⟨.ext false, segmentPoint (-1) (-2)⟩, ⟨.float .f64, (0 : BitVec 64)⟩] : List _)

example : (segmentProgram.codec ⟨true, true⟩ segmentImpls 2 true).toVec segmentValue =
    .ok ([2, 0] ++ [40, 0, 0, 0] ++ [12, 0, 0, 0, 22, 0, 0, 0, 32, 0, 0, 0] ++ [1, 0, 2, 0, 0, 0, 2, 0, 0, 0] ++
      [1, 0, 1, 0, 0, 0, 254, 255, 255, 255] ++ [0, 0, 0, 0, 0, 0, 0, 0]) := by rfl

/-- C122: exactly the types without integers of two bytes or more, tags and counts are written alike with and without
the feature; types of other crates and derived types count as they are. -/
theorem C122_types_iff (sp : Bool) (E : Env ι) (hx : ∀ i, ∃ x b, (E.extC i).valid x ∧ (E.extC i).enc x = .ok b) (t : Ty ι) :
    (∀ v, t.WF E v → (t.codec ⟨true, sp⟩ E).toVec v = (t.codec ⟨false, sp⟩ E).toVec v) ↔ t.widthFree = true := by
  constructor
  · intro h
    cases hs : t.widthFree with
    | true => rfl
    | false =>
      obtain ⟨v, b, c, hw, hb, hc, _, hlt⟩ := t.longer sp E hx
      have := h v hw
      unfold Codec.toVec at this
      rw [hb, hc] at this
      cases this
      exact absurd (hlt hs) (Nat.lt_irrefl _)
  · exact fun h v hv => t.enc_widthFree h v hv

example : (Ty.pair (.option .uuid) (.array 4 (.pair (.int .u8) (.float .f64))) : Ty Empty).widthFree = true ∧
    (Ty.result .bool .bool : Ty Empty).widthFree = false ∧ (Ty.vec .bool : Ty Empty).widthFree = false := by decide

example : ¬ ∀ v : Except Bool Bool, (Ty.result .bool .bool).WF demoEnv v →
    ((Ty.result .bool .bool).codec ⟨true, true⟩ demoEnv).toVec v = ((Ty.result .bool .bool).codec ⟨false, true⟩ demoEnv).toVec v :=
  fun h => absurd ((C122_types_iff true demoEnv (fun i => nomatch i) (.result .bool .bool)).1 h) (by decide)

/-- C122: data of those types is read, and passed over, whichever way the writer and the reader were built.  Missing:
the other types, for which it is false (`C122_misread_false`). -/
theorem C122_read_partial {fw fw' sp : Bool} {E : Env ι} (hE : E.Lawful) (t : Ty ι) (ht : t.widthFree = true)
    (v : t.denote E.X) (hw : t.WF E v) (hf : t.Fits E v) :
    ∃ b, (t.codec ⟨fw, sp⟩ E).toVec v = .ok b ∧
      ∀ rest, (t.codec ⟨fw', sp⟩ E).dec (b ++ rest) = .ok (v, rest) ∧
        (t.codec ⟨fw', sp⟩ E).skip (b ++ rest) = .ok ((), rest) ∧
        (t.codec ⟨fw', sp⟩ E).skipS (b ++ rest) = .ok ((), rest) := by
  have hv := t.valid_of ⟨fw', sp⟩ hE v hw hf
  have L := t.codec_lawful ⟨fw', sp⟩ hE
  obtain ⟨b, hb⟩ := L.enc_ok _ hv
  have he : (t.codec ⟨fw, sp⟩ E).enc v = (t.codec ⟨fw', sp⟩ E).enc v := by
    have := t.enc_widthFree (sp := sp) ht v hw
    cases fw <;> cases fw' <;> first | rfl | exact this | exact this.symm
  refine ⟨b, he.trans hb, fun rest => ?_⟩
  have hd := L.round_trip _ b hv hb rest
  obtain ⟨u, hs⟩ := L.skip_agree _ _ _ hd
  exact ⟨hd, hs, by rw [L.skipS_eq]; exact hs⟩

example (rest : Bytes) : ((Ty.option (.pair (.int .u8) .bool)).codec ⟨true, true⟩ demoEnv).dec ([1, 9, 1] ++ rest) =
    .ok (some (9, true), rest) := by
  obtain ⟨b, hb, h⟩ := C122_read_partial (fw := false) (fw' := true) (sp := true) demoEnv_lawful
    (.option (.pair (.int .u8) .bool)) rfl (some (9, true)) (fun _ _ => ⟨trivial, trivial⟩) (fun _ _ => ⟨trivial, trivial⟩)
  cases hb
  exact (h rest).1

/-- C122: a build with the feature takes the second byte of a struct or enum to belong to the revision, so of data
written without the feature it refuses whatever has another second byte than 0, if the type has fewer than 256
revisions. -/
theorem C122_refused {V : Type} (sp : Bool) (h : List Entry) (hh : ValidHistory h) (hl : h.length < 256) (fs : List (FieldDecl V))
    (vs : List (VariantDecl V)) (r x : UInt8) (hx : x ≠ 0) (t : Bytes) :
    (structC ⟨true, sp⟩ h fs).dec (r :: x :: t) = .err .deserialize ∧
      (structC ⟨true, sp⟩ h fs).skip (r :: x :: t) = .err .deserialize ∧
      (enumC ⟨true, sp⟩ h vs).dec (r :: x :: t) = .err .deserialize ∧
      (enumC ⟨true, sp⟩ h vs).skip (r :: x :: t) = .err .deserialize := by
  have hx : x.toNat ≠ 0 := fun h => hx (UInt8.toNat_inj.1 h)
  have hr := r.toNat_lt
  have hx2 := x.toNat_lt
  have hs : readU16 ⟨true, sp⟩ (r :: x :: t) = .ok (r.toNat + 256 * x.toNat, t) := by
    have e : r :: x :: t = encU16 ⟨true, sp⟩ (r.toNat + 256 * x.toNat) ++ t := by
      have : encU16 ⟨true, sp⟩ (r.toNat + 256 * x.toNat) = leBytes 2 (r.toNat + 256 * x.toNat) := by
        have : (BitVec.ofNat 16 (r.toNat + 256 * x.toNat)).toNat = r.toNat + 256 * x.toNat := by
          rw [BitVec.toNat_ofNat]; omega
        simp [encU16, encInt, this]
      rw [this]
      simp only [leBytes, List.cons_append, List.nil_append]
      congr 1
      · apply UInt8.toNat_inj.1
        simp
      · congr 1
        apply UInt8.toNat_inj.1
        simp only [UInt8.toNat_ofNat']
        omega
    rw [e, readU16_encU16 _ (by omega)]
  have h1 := C51_unknown_revision ⟨true, sp⟩ h hh fs _ _ _ hs (.inr (by omega))
  have h2 := C51_unknown_revision_enum ⟨true, sp⟩ h hh vs _ _ _ hs (.inr (by omega))
  exact ⟨h1.1, h1.2.1, h2.1, h2.2.1⟩

/-- `Rgb { r: 7, g: 8, b: 9 }` written without the feature. -/
example : (structC ⟨false, true⟩ [⟨1, false, false⟩] (rgbFields ⟨false, true⟩)).toVec (rgb 7 8 9) = .ok [1, 7, 8, 9] ∧
    (structC ⟨true, true⟩ [⟨1, false, false⟩] (rgbFields ⟨true, true⟩)).dec [1, 7, 8, 9] = .err .deserialize :=
  ⟨by rfl, (C122_refused true [⟨1, false, false⟩] ⟨by decide, by decide, by decide⟩ (by decide)
    (rgbFields ⟨true, true⟩) [] 1 7 (by decide) [8, 9]).1⟩

/-- C122 is false the other way round: data written with the feature has a byte 0 after the revision which a build
without it takes to be data.  `Rgb { r: 7, g: 8, b: 9 }` is read as `Rgb { r: 0, g: 7, b: 8 }`, and nothing reports
it. -/
theorem C122_misread_false :
    (structC ⟨true, true⟩ [⟨1, false, false⟩] (rgbFields ⟨true, true⟩)).toVec (rgb 7 8 9) = .ok [1, 0, 7, 8, 9] ∧
    (structC ⟨false, true⟩ [⟨1, false, false⟩] (rgbFields ⟨false, true⟩)).fromSlice [1, 0, 7, 8, 9] = .ok (rgb 0 7 8) := by
  constructor <;> rfl

end Revision
