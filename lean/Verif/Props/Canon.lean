import Verif.Proofs.CanonThird
import Verif.Props.Value

/-! # C113, C114: writing what was read -/

namespace Revision

variable {ι : Type}

/-! ### C113: nothing gets longer -/

/-- A value of a built-in type that was read is written again in no more bytes than it was read from.  The types it is
built from may include others, of which the same is known.
Missing from the full property: times where numbers vary in length (`C113_time_false`). -/
theorem C113_type_partial (cfg : Cfg) (E : Env ι) (he : E.EqLawful) (hx : ∀ i, (E.extC i).Rewrites NeverLonger) (t : Ty ι)
    (ht : t.Built fun u => u.isTime = true → cfg.fixedWidth = true) (s : Bytes) (v : t.denote E.X) (r : Bytes)
    (h : (t.codec cfg E).dec s = .ok (v, r)) :
    ∃ u b, s = u ++ r ∧ (t.codec cfg E).enc v = .ok b ∧ b.length ≤ u.length :=
  again_iff.1 (Ty.again (requires_notLonger cfg E he) (fun i _ => again_iff.2 (hx i)) t ht) s v r h

/-- So is a value of any type of a program whose types have one revision each, in the legacy or an optimised format.
Missing from the full property: times as above, and the indexed encodings of collections (`C113_indexed_false`). -/
theorem C113_program_partial [DecidableEq ι] (cfg : Cfg) (P : Program ι) (I : Impls P.kind) (he : I.EqLawful)
    (hP : P.Shrinking cfg) (n : Nat) (i : ι) (s : Bytes) (v : Values P.kind n i) (r : Bytes)
    (h : (P.codec cfg I n i).dec s = .ok (v, r)) :
    ∃ u b, s = u ++ r ∧ (P.codec cfg I n i).enc v = .ok b ∧ b.length ≤ u.length :=
  P.again I (p := fun u => u.isTime = true → cfg.fixedWidth = true) (Q := NeverLonger)
    (fun n c => requires_notLonger cfg (I.env n c) ⟨he.1 n, he.2 n⟩) (nums_notLonger cfg)
    (fun _ _ hf _ => ⟨hf.1, fun _ _ => rfl, hf.2⟩) (fun _ _ _ => rfl) hP n i s v r h

/-- A duration of 2^32 - 1 seconds and 1,500,000,000 nanoseconds, which fit in 5 bytes each, is read as one of 2^32
seconds, which take 9. -/
theorem C113_time_false : ∃ v b, ((Ty.duration : Ty Empty).codec .default demoEnv).dec
      [252, 255, 255, 255, 255, 252, 0, 47, 104, 89] = .ok (v, []) ∧
    ((Ty.duration : Ty Empty).codec .default demoEnv).enc v = .ok b ∧ b.length = 14 :=
  ⟨((2 ^ 32 : BitVec 64), (500000000 : BitVec 32)), [253, 0, 0, 0, 0, 1, 0, 0, 0, 252, 0, 101, 205, 29],
    by decide +kernel, by decide +kernel, rfl⟩

/-- `#[revisioned(revision(1, optimised))] struct Seq { #[revision(indexed_seq)] xs: Vec<u8> }` -/
def seqProgram : Program Unit where
  kind _ := .struct
  history _ := [⟨1, true, false⟩]
  body _ := .struct [⟨"xs", { indexedSeq := true }, .vec (.int .u8), fun _ _ => .ok ([] : List (BitVec 8)),
    fun _ _ _ v => .ok v⟩]

def seqImpls : Impls seqProgram.kind where
  cap := fun _ _ => true
  cmp := fun _ _ _ _ => .eq
  eq := fun _ _ _ _ => true

/-- Eight elements without a table of offsets are read, and written with one. -/
theorem C113_indexed_false : ∃ v b, (seqProgram.codec .default seqImpls 1 ()).dec
      [1, 10, 0, 0, 0, 0, 8, 1, 2, 3, 4, 5, 6, 7, 8] = .ok (v, []) ∧
    (seqProgram.codec .default seqImpls 1 ()).enc v = .ok b ∧ b.length = 47 :=
  ⟨([⟨.vec (.int .u8), ([1, 2, 3, 4, 5, 6, 7, 8] : List (BitVec 8))⟩] : List (DynAt seqProgram.kind 0)),
    [1, 42, 0, 0, 0, 1, 8, 0, 0, 0, 0, 1, 0, 0, 0, 2, 0, 0, 0, 3, 0, 0, 0, 4, 0, 0, 0, 5, 0, 0, 0, 6, 0, 0, 0, 7, 0, 0, 0,
      1, 2, 3, 4, 5, 6, 7, 8], rfl, rfl, rfl⟩

/-- Values of the types of other crates do not grow either.
Missing from the full property: bitmaps, whose bytes the library makes, and polygons (`C113_polygon_false`). -/
theorem C113_third_partial {δ ρ β : Type} (cfg : Cfg) (cap : Nat → Bool) (D : DecimalLib δ) (L : RegexLib ρ) (hL : L.Law)
    (B : BitmapLib β) (validB : β → Prop) (i : Third) (hi : i ≠ .bitmap) :
    (Third.codec cfg cap D L B validB i).Rewrites NeverLonger := by
  refine again_iff.1 ?_
  by_cases h : i = .decimal
  · subst h
    exact decimalC_again D
  · exact Third.again NotLonger.parts (nums_notLonger cfg) cap D hL B validB i h hi

/-- A polygon whose exterior is open is read, and its first coordinate written twice. -/
theorem C113_polygon_false : ∃ v b, (polygonC .default (fun _ => true) (fun _ => true)).dec
      [2, 0, 0, 0, 0, 0, 0, 0, 0, 0, 0, 0, 0, 0, 0, 0, 0, 0, 0, 0, 0, 0, 0, 240, 63, 0, 0, 0, 0, 0, 0, 0, 0, 0] = .ok (v, []) ∧
    (polygonC .default (fun _ => true) (fun _ => true)).enc v = .ok b ∧ b.length = 50 :=
  ⟨⟨[(0, 0), (0x3ff0000000000000, 0), (0, 0)], []⟩, [3, 0, 0, 0, 0, 0, 0, 0, 0, 0, 0, 0, 0, 0, 0, 0, 0, 0, 0, 0, 0, 0, 0, 240, 63,
    0, 0, 0, 0, 0, 0, 0, 0, 0, 0, 0, 0, 0, 0, 0, 0, 0, 0, 0, 0, 0, 0, 0, 0, 0], by decide +kernel, by decide +kernel, rfl⟩

/-! ### C114: one encoding of each value -/

/-- A value of a plain built-in type is read from the bytes it is written to, or from more of them.
Missing from the full property: that it is read from no others (`C114_number_false`), and the types that are not plain
(`C114_bits_false`, `C114_set_false`). -/
theorem C114_shortest_partial (cfg : Cfg) (E : Env ι) (hx : ∀ i, (E.extC i).Rewrites SameOrShorter) (t : Ty ι)
    (ht : t.Plain cfg) (s : Bytes) (v : t.denote E.X) (r : Bytes) (h : (t.codec cfg E).dec s = .ok (v, r)) :
    ∃ b, (t.codec cfg E).enc v = .ok b ∧ (s = b ++ r ∨ b.length + r.length < s.length) := by
  obtain ⟨u, b, rfl, h1, h2⟩ := again_iff.1 (Ty.again (requires_plain cfg E SameOrLess.parts
    (fun _ _ _ => nums_sameOrLess cfg) fun _ h => h) (fun i _ => again_iff.2 (hx i)) t ht) s v r h
  refine ⟨b, h1, ?_⟩
  rcases h2 with rfl | h2
  · exact .inl rfl
  · exact .inr (by rw [List.length_append]; omega)

/-- So is a value of any type of a program in the legacy format, whose types have one revision each and plain fields. -/
theorem C114_shortest_program_partial [DecidableEq ι] (cfg : Cfg) (P : Program ι) (I : Impls P.kind)
    (hP : P.Plain cfg SameOrShorter) (n : Nat) (i : ι) (s : Bytes) (v : Values P.kind n i) (r : Bytes)
    (h : (P.codec cfg I n i).dec s = .ok (v, r)) :
    ∃ b, (P.codec cfg I n i).enc v = .ok b ∧ (s = b ++ r ∨ b.length + r.length < s.length) := by
  obtain ⟨u, b, rfl, h1, h2⟩ := P.again I (Q := SameOrShorter)
    (fun n c => requires_plain cfg (I.env n c) SameOrLess.parts (fun _ _ _ => nums_sameOrLess cfg) fun _ h => h)
    (nums_sameOrLess cfg)
    (fun e _ hf he => ⟨hf.1, fun hb hs => (by rw [hf.2 hs] at hb; cases hb), fun ho => by rw [he] at ho; cases ho⟩)
    (fun e he ho => by rw [he] at ho; cases ho) hP n i s v r h
  refine ⟨b, h1, ?_⟩
  rcases h2 with rfl | h2
  · exact .inl rfl
  · exact .inr (by rw [List.length_append]; omega)

/-- A value of a plain type is read from the bytes it is written to and no others, where numbers have one length or
there are none: two inputs that are read as the same value with the same rest are the same. -/
theorem C114_same_partial (cfg : Cfg) (E : Env ι) (hx : ∀ i, (E.extC i).Rewrites SameBytes) (t : Ty ι)
    (ht : t.Rigid cfg) (s : Bytes) (v : t.denote E.X) (r : Bytes) (h : (t.codec cfg E).dec s = .ok (v, r)) :
    ∃ b, (t.codec cfg E).enc v = .ok b ∧ s = b ++ r := by
  have key : Again Same (t.codec cfg E).dec (t.codec cfg E).enc := by
    rcases ht.2 with hf | hb
    · exact Ty.again (requires_plain cfg E Same.parts (fun _ _ _ => nums_same hf Same.parts) fun _ h => h)
        (fun i _ => again_iff.2 (hx i)) t ht.1
    · exact Ty.again (requires_plain cfg E Same.parts (fun u hu hn => by rw [hu.2] at hn; cases hn) fun _ h => h.1)
        (fun i _ => again_iff.2 (hx i)) t (ht.1.and hb)
  obtain ⟨b, h1, u, rfl, h2⟩ := key s v r h
  exact ⟨b, h1, by rw [show b = u from h2]⟩

/-- So is a value of any type of such a program. -/
theorem C114_same_program_partial [DecidableEq ι] (cfg : Cfg) (hf : cfg.fixedWidth = true) (P : Program ι)
    (I : Impls P.kind) (hP : P.Plain cfg SameBytes) (n : Nat) (i : ι) (s : Bytes) (v : Values P.kind n i) (r : Bytes)
    (h : (P.codec cfg I n i).dec s = .ok (v, r)) : ∃ b, (P.codec cfg I n i).enc v = .ok b ∧ s = b ++ r := by
  obtain ⟨u, b, rfl, h1, h2⟩ := P.again I (Q := SameBytes)
    (fun n c => requires_plain cfg (I.env n c) Same.parts (fun _ _ _ => nums_same hf Same.parts) fun _ h => h)
    (nums_same hf Same.parts)
    (fun e _ hf he => ⟨hf.1, fun hb hs => (by rw [hf.2 hs] at hb; cases hb), fun ho => by rw [he] at ho; cases ho⟩)
    (fun e he ho => by rw [he] at ho; cases ho) hP n i s v r h
  exact ⟨b, h1, by rw [show b = u from h2]⟩

/-- Two records that are read as the same value are the same. -/
theorem C114_one_record_partial [DecidableEq ι] (cfg : Cfg) (hf : cfg.fixedWidth = true) (P : Program ι)
    (I : Impls P.kind) (hP : P.Plain cfg SameBytes) (n : Nat) (i : ι) (s s' : Bytes) (v : Values P.kind n i) (r : Bytes)
    (h : (P.codec cfg I n i).dec s = .ok (v, r)) (h' : (P.codec cfg I n i).dec s' = .ok (v, r)) : s = s' := by
  obtain ⟨b, h1, h2⟩ := C114_same_program_partial cfg hf P I hP n i s v r h
  obtain ⟨b', h3, h4⟩ := C114_same_program_partial cfg hf P I hP n i s' v r h'
  rw [h1] at h3
  injection h3 with h3
  rw [h2, h4, h3]

/-- Nor have values of the types of other crates more than one shortest encoding, or one encoding where numbers have one
length.  Missing from the full property: decimals and bitmaps, whose bytes the libraries make. -/
theorem C114_third_partial {δ ρ β : Type} (cfg : Cfg) (cap : Nat → Bool) (D : DecimalLib δ) (L : RegexLib ρ) (hL : L.Law)
    (B : BitmapLib β) (validB : β → Prop) (i : Third) (h1 : i ≠ .decimal) (h2 : i ≠ .bitmap) :
    (Third.codec cfg cap D L B validB i).Rewrites SameOrShorter ∧
    (cfg.fixedWidth = true → (Third.codec cfg cap D L B validB i).Rewrites SameBytes) :=
  ⟨again_iff.1 (Third.again SameOrLess.parts (nums_sameOrLess cfg) cap D hL B validB i h1 h2),
    fun hf => again_iff.1 (Third.again Same.parts (nums_same hf Same.parts) cap D hL B validB i h1 h2)⟩

/-- A small number in a longer form is read all the same. -/
theorem C114_number_false :
    ((Ty.int .u32 : Ty Empty).codec .default demoEnv).dec [5] = .ok ((5 : BitVec 32), []) ∧
    ((Ty.int .u32 : Ty Empty).codec .default demoEnv).dec [251, 5, 0] = .ok ((5 : BitVec 32), []) := ⟨rfl, rfl⟩

/-- The unused bits of a vector of `bool` are ignored, even where numbers have one length. -/
theorem C114_bits_false :
    ((Ty.vec .bool : Ty Empty).codec ⟨true, true⟩ demoEnv).dec [1, 0, 0, 0, 0, 0, 0, 0, 1] = .ok ([true], []) ∧
    ((Ty.vec .bool : Ty Empty).codec ⟨true, true⟩ demoEnv).dec [1, 0, 0, 0, 0, 0, 0, 0, 3] = .ok ([true], []) :=
  ⟨by decide +kernel, by decide +kernel⟩

/-- The elements of a set may be repeated. -/
theorem C114_set_false :
    ((Ty.hashSet (.int .u8) : Ty Empty).codec ⟨true, true⟩ demoEnv).dec [1, 0, 0, 0, 0, 0, 0, 0, 7] =
      .ok (([7] : List (BitVec 8)), []) ∧
    ((Ty.hashSet (.int .u8) : Ty Empty).codec ⟨true, true⟩ demoEnv).dec [2, 0, 0, 0, 0, 0, 0, 0, 7, 7] =
      .ok (([7] : List (BitVec 8)), []) :=
  ⟨by decide +kernel, by decide +kernel⟩

/-! ### The demonstration -/

/-- Maps with repeated keys and overlong numbers only get shorter. -/
example (s : Bytes) (v : List (String × BitVec 32)) (r : Bytes)
    (h : ((Ty.hashMap .string (.int .u32)).codec .default demoEnv).dec s = .ok (v, r)) :
    ∃ u b, s = u ++ r ∧ ((Ty.hashMap .string (.int .u32)).codec .default demoEnv).enc v = .ok b ∧ b.length ≤ u.length :=
  C113_type_partial .default demoEnv
    ⟨fun t a b h => by cases t <;> simp_all [demoEnv, demoEq], fun t a b c h h' => by cases t <;> simp_all [demoEnv, demoEq]⟩
    nofun (.hashMap .string (.int .u32)) ⟨nofun, nofun, nofun⟩ s v r h

/-- `#[revisioned(revision(1))] enum Expr { Num(u64), Sum(Vec<Expr>) }` and
`#[revisioned(revision(1, optimised, indexed_struct))] struct Sheet { cells: HashMap<String, Expr> }` -/
def sheetProgram : Program Bool where
  kind
    | false => .enum
    | true => .struct
  history
    | false => [⟨1, false, false⟩]
    | true => [⟨1, true, true⟩]
  body
    | false => .enum [
      ⟨"Num", {}, [⟨"field_0", {}, .int .u64, fun _ _ => .ok (0 : BitVec 64), fun _ _ _ v => .ok v⟩], fun _ _ _ => .panic⟩,
      ⟨"Sum", {}, [⟨"field_0", {}, .vec (.ext false), fun _ _ => .ok ([] : List _), fun _ _ _ v => .ok v⟩],
        fun _ _ _ => .panic⟩]
    | true => .struct [⟨"cells", {}, .hashMap .string (.ext false), fun _ _ => .ok ([] : List _), fun _ _ _ v => .ok v⟩]

/-- `Expr` by itself. -/
def exprProgram : Program Unit where
  kind _ := .enum
  history _ := [⟨1, false, false⟩]
  body _ := .enum [
      ⟨"Num", {}, [⟨"field_0", {}, .int .u64, fun _ _ => .ok (0 : BitVec 64), fun _ _ _ v => .ok v⟩], fun _ _ _ => .panic⟩,
      ⟨"Sum", {}, [⟨"field_0", {}, .vec (.ext ()), fun _ _ => .ok ([] : List _), fun _ _ _ v => .ok v⟩],
        fun _ _ _ => .panic⟩]

theorem exprSigs_accepted : AcceptedSigs ⟨1, false, false⟩ [⟨"Num", {}, [{}]⟩, ⟨"Sum", {}, [{}]⟩] where
  distinct := by unfold DistinctVariants; decide
  discs := by
    refine ⟨[("Sum", 1), ("Num", 0)], rfl, fun n d h => ?_⟩
    have := mem_of_lookup_eq_some _ _ _ h
    simp only [List.mem_cons, Prod.mk.injEq, List.not_mem_nil, or_false] at this
    omega
  optimised := nofun

theorem sheetProgram_shrinking (cfg : Cfg) : sheetProgram.Shrinking cfg := by
  intro i
  cases i with
  | false =>
    refine ⟨_, rfl, trivial, exprSigs_accepted, ?_⟩
    exact forall_mem_pair ⟨by unfold DistinctFieldNames; decide, List.forall_mem_singleton.2 ⟨nofun, nofun⟩⟩
      ⟨by unfold DistinctFieldNames; decide, List.forall_mem_singleton.2 ⟨⟨nofun, nofun⟩, nofun⟩⟩
  | true =>
    exact ⟨_, rfl, trivial, by unfold DistinctFieldNames; decide,
      List.forall_mem_singleton.2 ⟨⟨nofun, nofun, nofun⟩, fun _ => rfl⟩⟩

theorem exprProgram_plain (cfg : Cfg) (R : Bytes → Bytes → Prop) : exprProgram.Plain cfg R := by
  intro i
  refine ⟨_, rfl, rfl, exprSigs_accepted, ?_⟩
  exact forall_mem_pair
    ⟨by unfold DistinctFieldNames; decide, List.forall_mem_singleton.2 ⟨⟨rfl, rfl, nofun⟩, nofun⟩⟩
    ⟨by unfold DistinctFieldNames; decide, List.forall_mem_singleton.2 ⟨⟨⟨rfl, rfl, nofun⟩, rfl, rfl, nofun⟩, nofun⟩⟩

/-- Keys are strings. -/
def sheetImpls : Impls sheetProgram.kind where
  cap := fun _ _ => true
  cmp := fun _ _ _ _ => .eq
  eq
    | _, .string, a, b => a == b
    | _, _, _, _ => true

theorem sheetImpls_lawful : sheetImpls.EqLawful :=
  ⟨fun n t a b h => by cases t <;> simp_all [sheetImpls], fun n t a b c h h' => by cases t <;> simp_all [sheetImpls]⟩

/-- Sheets never get longer. -/
example (n : Nat) (s : Bytes) (v : Values sheetProgram.kind n true) (r : Bytes)
    (h : (sheetProgram.codec .default sheetImpls n true).dec s = .ok (v, r)) :
    ∃ u b, s = u ++ r ∧ (sheetProgram.codec .default sheetImpls n true).enc v = .ok b ∧ b.length ≤ u.length :=
  C113_program_partial .default sheetProgram sheetImpls sheetImpls_lawful (sheetProgram_shrinking _) n true s v r h

/-- A sheet with the key `a` twice is read as one with the key once. -/
example : ∃ v b, (sheetProgram.codec .default sheetImpls 2 true).dec
      [1, 15, 0, 0, 0, 4, 0, 0, 0, 2, 1, 97, 1, 0, 7, 1, 97, 1, 0, 8] = .ok (v, []) ∧
    (sheetProgram.codec .default sheetImpls 2 true).enc v = .ok b ∧
    b = [1, 10, 0, 0, 0, 4, 0, 0, 0, 1, 1, 97, 1, 0, 8] := ⟨_, _, rfl, rfl, rfl⟩

/-- The shortest encoding of an expression. -/
example (I : Impls exprProgram.kind) (n : Nat) (s : Bytes) (v : Values exprProgram.kind n ()) (r : Bytes)
    (h : (exprProgram.codec .default I n ()).dec s = .ok (v, r)) :
    ∃ b, (exprProgram.codec .default I n ()).enc v = .ok b ∧ (s = b ++ r ∨ b.length + r.length < s.length) :=
  C114_shortest_program_partial .default exprProgram I (exprProgram_plain _ _) n () s v r h

/-- With numbers of one length it is the only one. -/
example (I : Impls exprProgram.kind) (n : Nat) (s s' : Bytes) (v : Values exprProgram.kind n ()) (r : Bytes)
    (h : (exprProgram.codec ⟨true, true⟩ I n ()).dec s = .ok (v, r))
    (h' : (exprProgram.codec ⟨true, true⟩ I n ()).dec s' = .ok (v, r)) : s = s' :=
  C114_one_record_partial ⟨true, true⟩ rfl exprProgram I (exprProgram_plain _ _) n () s s' v r h h'

/-- A pair of a byte and an optional character has one encoding whatever the feature. -/
example (cfg : Cfg) (s : Bytes) (v : BitVec 8 × Option Char) (r : Bytes)
    (h : ((Ty.pair (.int .u8) (.option .char)).codec cfg demoEnv).dec s = .ok (v, r)) :
    ∃ b, ((Ty.pair (.int .u8) (.option .char)).codec cfg demoEnv).enc v = .ok b ∧ s = b ++ r :=
  C114_same_partial cfg demoEnv nofun (.pair (.int .u8) (.option .char))
    ⟨⟨⟨rfl, rfl, nofun⟩, ⟨rfl, rfl, nofun⟩, ⟨rfl, rfl, nofun⟩, rfl, rfl, nofun⟩, .inr ⟨rfl, rfl, rfl, rfl⟩⟩ s v r h

/-- Dates. -/
example {δ ρ β : Type} (D : DecimalLib δ) (L : RegexLib ρ) (hL : L.Law) (B : BitmapLib β) (s : Bytes) (v : NaiveDate)
    (r : Bytes) (h : (Third.codec .default (fun _ => true) D L B (fun _ => True) .naiveDate).dec s = .ok (v, r)) :
    ∃ u b, s = u ++ r ∧ (naiveDateC .default).enc v = .ok b ∧ (b = u ∨ b.length < u.length) :=
  (C114_third_partial .default _ D L hL B _ .naiveDate nofun nofun).1 s v r h

/-- Strings in the shortest form. -/
example (s : Bytes) (v : String) (r : Bytes) (h : ((Ty.string : Ty Empty).codec .default demoEnv).dec s = .ok (v, r)) :
    ∃ b, ((Ty.string : Ty Empty).codec .default demoEnv).enc v = .ok b ∧ (s = b ++ r ∨ b.length + r.length < s.length) :=
  C114_shortest_partial .default demoEnv nofun .string ⟨rfl, rfl, nofun⟩ s v r h

end Revision
