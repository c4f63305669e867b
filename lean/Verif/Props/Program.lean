import Verif.Proofs.ProgramFaithful
import Verif.Proofs.ProgramLift
import Verif.Proofs.ProgramPanic
import Verif.Spec.Demo

/-! # C68, C73, C74: programs of mutually recursive derived types -/

namespace Revision

/-! ## C73 Recursive derived types round-trip -/

/-- Values of every derived type of a program, however deep derived types nest in them and however
they use one another, are read back, skipped and checked, whatever follows them.  Missing from the
full property: declarations the types of which do not round-trip by themselves (`C53_fixed_size_false`)
or cannot be skipped (`C55_specialised_false`), which `Program.Readable` and `valid` exclude. -/
theorem C73_round_trip_partial {ι : Type} [DecidableEq ι] (cfg : Cfg) (P : Program ι) (I : Impls P.kind)
    (htrans : ∀ n t, Std.TransCmp (I.cmp n t)) (hP : P.Readable cfg P.current) (n : Nat) (i : ι)
    (v : Values P.kind n i) (b : Bytes) (hv : (P.codec cfg I n i).valid v)
    (hb : (P.codec cfg I n i).enc v = .ok b) (t : Bytes) :
    (P.codec cfg I n i).dec (b ++ t) = .ok (v, t) ∧
      (P.codec cfg I n i).skip (b ++ t) = .ok ((), t) ∧
      (P.codec cfg I n i).skipS (b ++ t) = .ok ((), t) ∧
      (P.codec cfg I n i).check (b ++ t) = .ok ((), t) :=
  have h := P.faithful cfg I htrans hP n i
  ⟨h.round_trip v b hv hb t, h.skip_after v b hv hb t, h.skipS_after v b hv hb t, h.check_after v b hv hb t⟩

/-- The depth to which the model follows a program is not observable: a value nesting at most `n` deep is
written as the same bytes at every depth `m ≥ n`, … -/
theorem C73_depth_written {ι : Type} [DecidableEq ι] (cfg : Cfg) (P : Program ι) (I : Impls P.kind) (hI : I.DepthFree)
    (n m : Nat) (hnm : n ≤ m) (i : ι) (v : Values P.kind n i) :
    (P.codec cfg I m i).enc (Values.lift P.kind n m hnm i v) = (P.codec cfg I n i).enc v ∧
      ((P.codec cfg I n i).valid v → (P.codec cfg I m i).valid (Values.lift P.kind n m hnm i v)) :=
  have h := P.lifts cfg I hI n m hnm i
  ⟨h.enc v, h.valid v⟩

/-- … and a reader that follows any number `m ≥ n` of levels gets that same value.  Missing from the full
property: what `C73_round_trip_partial` misses. -/
theorem C73_any_depth_partial {ι : Type} [DecidableEq ι] (cfg : Cfg) (P : Program ι) (I : Impls P.kind)
    (htrans : ∀ n t, Std.TransCmp (I.cmp n t)) (hI : I.DepthFree) (hP : P.Readable cfg P.current) (n m : Nat)
    (hnm : n ≤ m) (i : ι) (v : Values P.kind n i) (b : Bytes) (hv : (P.codec cfg I n i).valid v)
    (hb : (P.codec cfg I n i).enc v = .ok b) (t : Bytes) :
    (P.codec cfg I m i).dec (b ++ t) = .ok (Values.lift P.kind n m hnm i v, t) ∧
      (P.codec cfg I m i).skip (b ++ t) = .ok ((), t) ∧
      (P.codec cfg I m i).skipS (b ++ t) = .ok ((), t) ∧
      (P.codec cfg I m i).check (b ++ t) = .ok ((), t) :=
  have h := C73_depth_written cfg P I hI n m hnm i v
  C73_round_trip_partial cfg P I htrans hP m i _ b (h.2 hv) (h.1.trans hb) t

/-- … so a record says which value it is of: two values have the same record only if they are the same, and no record is the beginning
of another.  Missing from the full property: what `C73_round_trip_partial` misses. -/
theorem C73_injective_partial {ι : Type} [DecidableEq ι] (cfg : Cfg) (P : Program ι) (I : Impls P.kind)
    (htrans : ∀ n t, Std.TransCmp (I.cmp n t)) (hP : P.Readable cfg P.current) (n : Nat) (i : ι)
    (v w : Values P.kind n i) (b more : Bytes) (hv : (P.codec cfg I n i).valid v) (hw : (P.codec cfg I n i).valid w)
    (hb : (P.codec cfg I n i).enc v = .ok b) (hb' : (P.codec cfg I n i).enc w = .ok (b ++ more)) : v = w ∧ more = [] := by
  have e1 := (C73_round_trip_partial cfg P I htrans hP n i v b hv hb more).1
  have e2 := (C73_round_trip_partial cfg P I htrans hP n i w _ hw hb' []).1
  rw [List.append_nil, e1] at e2
  simpa using e2

/-! ## C74 Nested types migrate independently -/

/-- A program reads the data it wrote when each of its types was at any earlier revision of its own:
what it gets is the value with every derived value in it migrated, from the inside out; if a
migration is refused, so is the data.  Older data is skipped whether or not it can be migrated.
The value nests at most `n` deep; the reader follows any number `m ≥ n` of levels.
Missing from the full property: the declarations for which the migration of a single type is not as
declared (`C50_shadowing_false`, `C50_removed_indexed_false`, `C54_optimised_fields_false`,
`C55_specialised_false`), which `Program.Readable` excludes. -/
theorem C74_nested_migration_partial {ι : Type} [DecidableEq ι] (cfg : Cfg) (P : Program ι) (I I' : Impls P.kind)
    (r : ι → Nat) (hP : P.Readable cfg r) (hcap : ∀ t k, I.cap t k = true → I'.cap t k = true)
    (n m : Nat) (hnm : n ≤ m) (i : ι) (v : Values P.kind n i) (b : Bytes)
    (hv : ((P.asOf r).codec cfg I n i).valid v)
    (hb : ((P.asOf r).codec cfg I n i).enc v = .ok b) (t : Bytes) :
    ((P.codec cfg I' m i).dec (b ++ t)).ok? = (P.migrate cfg I I' r n m i v).map (·, t) ∧
      (P.codec cfg I' m i).skip (b ++ t) = .ok ((), t) ∧
      (P.codec cfg I' m i).skipS (b ++ t) = .ok ((), t) ∧
      ((P.codec cfg I' m i).check (b ++ t)).ok? = (P.migrate cfg I I' r n m i v).map (fun _ => ((), t)) :=
  have h := P.reads (w := false) cfg I I' r hP hcap n m hnm i
  ⟨h.dec v b hv hb t, (h.skip v b hv hb t).strict, (h.skipS v b hv hb t).strict, h.check v b hv hb t⟩

/-! ## C68 Derived deserialisation does not panic on corrupt input -/

/-- Reading, skipping and checking arbitrary bytes as any type of a program, nested to any depth,
never panics, unless the user's functions do, or the allocator refuses, or the fields have types or
encodings known to panic (`C12`, `C69_map_overflow_false`). -/
theorem C68_program {ι : Type} [DecidableEq ι] (cfg : Cfg) (P : Program ι) (I : Impls P.kind)
    (hcap : ∀ t n, I.cap t n = true) (hP : P.Tame) (n : Nat) (i : ι) : (P.codec cfg I n i).NeverPanics :=
  P.neverPanics cfg I hcap hP n i

/-! ### A recursive program -/

/-- The types of the demonstration. -/
inductive DemoType where
  | tree
  | doc
  deriving DecidableEq

/-- ```
#[revisioned(revision(1), revision(2))]
enum Tree {
  Leaf { value: u32, #[revision(start = 2)] label: String },
  Node(Vec<Tree>),
}
#[revisioned(revision(1, optimised))]
struct Doc { title: String, #[revision(indexed_seq)] parts: Vec<Tree>, next: Option<Box<Doc>> }
``` -/
def demoProgram : Program DemoType where
  kind | .tree => .enum | .doc => .struct
  history | .tree => [⟨1, false, false⟩, ⟨2, false, false⟩] | .doc => [⟨1, true, false⟩]
  body
    | .tree => .enum [
        ⟨"Leaf", {}, [⟨"value", {}, .int .u32, fun _ _ => .ok (0 : BitVec 32), fun _ _ _ v => .ok v⟩,
          ⟨"label", { start := some 2 }, .string, fun _ _ => .ok "", fun _ _ _ v => .ok v⟩], fun _ _ _ => .panic⟩,
        ⟨"Node", {}, [⟨"field_0", {}, .vec (.ext .tree), fun _ _ => .ok ([] : List _), fun _ _ _ v => .ok v⟩],
          fun _ _ _ => .panic⟩]
    | .doc => .struct [
        ⟨"title", {}, .string, fun _ _ => .ok "", fun _ _ _ v => .ok v⟩,
        ⟨"parts", { indexedSeq := true }, .vec (.ext .tree), fun _ _ => .ok ([] : List _),
          fun _ _ _ v => .ok v⟩,
        ⟨"next", {}, .option (.wrap (.ext .doc)), fun _ _ => .ok (none : Option _), fun _ _ _ v => .ok v⟩]

/-- `Ord` of the demonstration: numbers by value, everything else equal. -/
def demoProgramCmp (n : Nat) : (t : Ty DemoType) → t.denote (Values demoProgram.kind n) →
    t.denote (Values demoProgram.kind n) → Ordering
  | .int k, a, b => compareOn (IntTy.value k) a b
  | _, _, _ => .eq

/-- The rest of the demonstration program. -/
def demoImpls : Impls demoProgram.kind where
  cap := fun _ n => decide (n ≤ 2 ^ 40)
  cmp := demoProgramCmp
  eq := fun _ _ _ _ => true

theorem demoImpls_trans (n : Nat) (t : Ty DemoType) : Std.TransCmp (demoImpls.cmp n t) := by
  cases t
  case int k => exact comap_trans (IntTy.value k) compare
  all_goals exact constEq_trans

theorem demoImpls_depthFree : demoImpls.DepthFree where
  cmp _ _ _ t _ _ := by cases t <;> rfl
  eq _ _ _ _ _ _ := rfl

theorem forall_mem_pair {α : Type} {p : α → Prop} {a b : α} (ha : p a) (hb : p b) : ∀ x ∈ [a, b], p x := by
  intro x hx
  rcases List.mem_cons.1 hx with rfl | hx
  · exact ha
  · rw [List.mem_singleton.1 hx]; exact hb

/-- The demonstration can read what it wrote when `Tree` was at either of its revisions. -/
theorem demoProgram_readable (r : DemoType → Nat) (h1 : r .tree = 1 ∨ r .tree = 2) (h2 : r .doc = 1) :
    demoProgram.Readable .default r where
  history i := by cases i <;> exact ⟨by decide, by decide, by decide⟩
  lower i := by cases i <;> omega
  upper i := by cases i <;> simp only [demoProgram, List.length] <;> omega
  body i := by
    have hlt : ∀ n d, List.lookup n [("Node", 1), ("Leaf", 0)] = some d → d < 2 ^ 32 := by
      intro n d h
      have := mem_of_lookup_eq_some _ _ _ h
      simp only [List.mem_cons, Prod.mk.injEq, List.not_mem_nil, or_false] at this
      omega
    cases i with
    | tree =>
      unfold Program.entryAt
      rcases h1 with h | h <;> rw [h] <;>
      · refine ⟨⟨by unfold DistinctVariants; decide, ⟨[("Node", 1), ("Leaf", 0)], rfl, hlt⟩, fun h => (by cases h)⟩,
          fun h _ _ _ _ _ => (by cases h), fun _ => forall_mem_pair (fun _ => ?_) (fun _ => ?_), fun _ v _ f _ => Or.inl rfl⟩ <;>
          (unfold DistinctFieldNames; decide)
    | doc =>
      unfold Program.entryAt
      rw [h2]
      refine ⟨by unfold DistinctFieldNames; decide, fun _ f hf h1 h2 => ?_, fun h _ _ => by cases h⟩
      have hf : f.existsAt 1 = true := h1
      have hg : f.existsAt 1 = false := h2
      rw [hf] at hg
      cases hg

/-- `Node([Leaf { value: 5 }, Node([])])` at revision 1. -/
def demoTree : Values demoProgram.kind 3 .tree :=
  (⟨"Node", [⟨.vec (.ext .tree), ([⟨"Leaf", [⟨.int .u32, (5 : BitVec 32)⟩]⟩,
    ⟨"Node", [⟨.vec (.ext .tree), ([] : List (EnumVal _))⟩]⟩] : List (EnumVal _))⟩]⟩ : EnumVal _)

/-- The same with the labels revision 2 adds. -/
def demoTreeNew : Values demoProgram.kind 3 .tree :=
  (⟨"Node", [⟨.vec (.ext .tree), ([⟨"Leaf", [⟨.int .u32, (5 : BitVec 32)⟩, ⟨.string, ""⟩]⟩,
    ⟨"Node", [⟨.vec (.ext .tree), ([] : List (EnumVal _))⟩]⟩] : List (EnumVal _))⟩]⟩ : EnumVal _)

/-- A document with a tree and another document in it, all at revision 1. -/
def demoDoc : Values demoProgram.kind 4 .doc :=
  ([⟨.string, "d"⟩, ⟨.vec (.ext .tree), ([demoTree, demoTree] : List _)⟩,
    ⟨.option (.wrap (.ext .doc)), (none : Option _)⟩] : List _)

def demoDocNew : Values demoProgram.kind 4 .doc :=
  ([⟨.string, "d"⟩, ⟨.vec (.ext .tree), ([demoTreeNew, demoTreeNew] : List _)⟩,
    ⟨.option (.wrap (.ext .doc)), (none : Option _)⟩] : List _)

/-- `Tree` was at revision 1, `Doc` as now. -/
def demoOld : DemoType → Nat := fun _ => 1

theorem demoTree_valid : ((demoProgram.asOf demoOld).codec .default demoImpls 3 .tree).valid demoTree := by
  refine ⟨1, _, mem_variantArms.2 ⟨.tail _ (.head _), rfl, rfl⟩, rfl, ⟨⟨_, rfl, ?_⟩, rfl⟩, fun h => by cases h⟩
  refine ⟨by decide, fun _ => rfl, forall_mem_pair ?_ ?_⟩
  · exact ⟨0, _, mem_variantArms.2 ⟨.head _, rfl, rfl⟩, rfl, ⟨⟨_, rfl, trivial⟩, rfl⟩, fun h => by cases h⟩
  · exact ⟨1, _, mem_variantArms.2 ⟨.tail _ (.head _), rfl, rfl⟩, rfl,
      ⟨⟨_, rfl, by decide, fun h => absurd rfl h, fun a ha => by cases ha⟩, rfl⟩, fun h => by cases h⟩

theorem demoTreeNew_valid : (demoProgram.codec .default demoImpls 3 .tree).valid demoTreeNew := by
  refine ⟨1, _, mem_variantArms.2 ⟨.tail _ (.head _), rfl, rfl⟩, rfl, ⟨⟨_, rfl, ?_⟩, rfl⟩, fun h => by cases h⟩
  refine ⟨by decide, fun _ => rfl, forall_mem_pair ?_ ?_⟩
  · exact ⟨0, _, mem_variantArms.2 ⟨.head _, rfl, rfl⟩, rfl,
      ⟨⟨_, rfl, trivial⟩, ⟨_, rfl, by decide, fun h => absurd rfl h⟩, rfl⟩, fun h => by cases h⟩
  · exact ⟨1, _, mem_variantArms.2 ⟨.tail _ (.head _), rfl, rfl⟩, rfl,
      ⟨⟨_, rfl, by decide, fun h => absurd rfl h, fun a ha => by cases ha⟩, rfl⟩, fun h => by cases h⟩

example : ((demoProgram.asOf demoOld).codec .default demoImpls 3 .tree).enc demoTree =
    .ok [1, 1, 2, 1, 0, 5, 1, 1, 0] := rfl

example : (demoProgram.codec .default demoImpls 3 .tree).enc demoTreeNew = .ok [2, 1, 2, 2, 0, 5, 0, 2, 1, 0] := rfl

example : demoProgram.migrate .default demoImpls demoImpls demoOld 3 3 .tree demoTree = some demoTreeNew := rfl

example (t : Bytes) : ((demoProgram.codec .default demoImpls 3 .tree).dec ([1, 1, 2, 1, 0, 5, 1, 1, 0] ++ t)).ok? =
    some (demoTreeNew, t) :=
  (C74_nested_migration_partial .default demoProgram demoImpls demoImpls demoOld
    (demoProgram_readable _ (.inl rfl) rfl) (fun _ _ h => h) 3 3 (Nat.le_refl 3) .tree demoTree _ demoTree_valid rfl t).1

theorem demoDoc_valid : ((demoProgram.asOf demoOld).codec .default demoImpls 4 .doc).valid demoDoc :=
  ⟨⟨_, rfl, by decide, fun _ => rfl⟩,
    ⟨_, rfl, by decide, rfl, forall_mem_pair demoTree_valid demoTree_valid,
      forall_mem_pair (fun b hb => by cases hb; decide) (fun b hb => by cases hb; decide)⟩,
    ⟨_, rfl, trivial⟩, rfl⟩

example : ((demoProgram.asOf demoOld).codec .default demoImpls 4 .doc).enc demoDoc =
    .ok [1, 23, 0, 0, 0, 1, 100, 0, 2, 1, 1, 2, 1, 0, 5, 1, 1, 0, 1, 1, 2, 1, 0, 5, 1, 1, 0, 0] := rfl

example (t : Bytes) : ((demoProgram.codec .default demoImpls 4 .doc).dec
    ([1, 23, 0, 0, 0, 1, 100, 0, 2, 1, 1, 2, 1, 0, 5, 1, 1, 0, 1, 1, 2, 1, 0, 5, 1, 1, 0, 0] ++ t)).ok? =
    some (demoDocNew, t) :=
  (C74_nested_migration_partial .default demoProgram demoImpls demoImpls demoOld
    (demoProgram_readable _ (.inl rfl) rfl) (fun _ _ h => h) 4 4 (Nat.le_refl 4) .doc demoDoc _ demoDoc_valid rfl t).1

/-- `C73` applies to the demonstration. -/
example (n : Nat) (i : DemoType) (v : Values demoProgram.kind n i) (b : Bytes)
    (hv : (demoProgram.codec .default demoImpls n i).valid v)
    (hb : (demoProgram.codec .default demoImpls n i).enc v = .ok b) :
    (demoProgram.codec .default demoImpls n i).dec b = .ok (v, []) := by
  have := (C73_round_trip_partial .default demoProgram demoImpls demoImpls_trans
    (demoProgram_readable _ (.inr rfl) rfl) n i v b hv hb []).1
  rwa [List.append_nil] at this

/-- Two values with the same record are the same. -/
example (n : Nat) (i : DemoType) (v w : Values demoProgram.kind n i) (b : Bytes)
    (hv : (demoProgram.codec .default demoImpls n i).valid v) (hw : (demoProgram.codec .default demoImpls n i).valid w)
    (hb : (demoProgram.codec .default demoImpls n i).enc v = .ok b)
    (hb' : (demoProgram.codec .default demoImpls n i).enc w = .ok b) : v = w :=
  (C73_injective_partial .default demoProgram demoImpls demoImpls_trans (demoProgram_readable _ (.inr rfl) rfl) n i v w b [] hv hw hb
    (by rwa [List.append_nil])).1

/-- The tree of depth 3 with labels, written at depth 3 and read at any greater depth. -/
example (m : Nat) (hm : 3 ≤ m) (t : Bytes) :
    (demoProgram.codec .default demoImpls m .tree).dec ([2, 1, 2, 2, 0, 5, 0, 2, 1, 0] ++ t) =
      .ok (Values.lift demoProgram.kind 3 m hm .tree demoTreeNew, t) :=
  (C73_any_depth_partial .default demoProgram demoImpls demoImpls_trans demoImpls_depthFree
    (demoProgram_readable _ (.inr rfl) rfl) 3 m hm .tree demoTreeNew _ demoTreeNew_valid rfl t).1

/-- Lifting keeps the value as it looks. -/
example : Values.lift demoProgram.kind 3 5 (by omega) .tree demoTree =
    (⟨"Node", [⟨.vec (.ext .tree), ([⟨"Leaf", [⟨.int .u32, (5 : BitVec 32)⟩]⟩,
      ⟨"Node", [⟨.vec (.ext .tree), ([] : List (EnumVal _))⟩]⟩] : List (EnumVal _))⟩]⟩ : EnumVal _) := rfl

theorem demoProgram_tame : demoProgram.Tame := by
  have hforall3 : ∀ {p : Field demoProgram.kind → Prop} {a b c}, p a → p b → p c → ∀ x ∈ [a, b, c], p x := by
    intro p a b c ha hb hc x hx
    rcases List.mem_cons.1 hx with rfl | hx
    · exact ha
    · exact forall_mem_pair hb hc x hx
  intro i
  cases i with
  | tree =>
    refine ⟨forall_mem_pair (forall_mem_pair ?_ ?_) (List.forall_mem_singleton.2 ?_), ?_,
      forall_mem_pair (fun h => by cases h) (fun h => by cases h)⟩
    · exact ⟨rfl, rfl, fun h => by cases h <;> contradiction, fun _ _ => nofun, fun _ _ _ _ => nofun⟩
    · exact ⟨rfl, rfl, fun h => by cases h <;> contradiction, fun _ _ => nofun, fun _ _ _ _ => nofun⟩
    · exact ⟨rfl, rfl, fun h => by cases h <;> contradiction, fun _ _ => nofun, fun _ _ _ _ => nofun⟩
    · refine forall_mem_pair (forall_mem_pair ?_ ?_) (forall_mem_pair ?_ ?_) <;> (unfold DistinctFieldNames; decide)
  | doc =>
    refine ⟨hforall3 ?_ ?_ ?_, List.forall_mem_singleton.2 (by unfold DistinctFieldNames; decide)⟩
    · exact ⟨rfl, rfl, fun h => by cases h <;> contradiction, fun _ _ => nofun, fun _ _ _ _ => nofun⟩
    · exact ⟨rfl, rfl, fun _ => .inl ⟨_, rfl⟩, fun _ _ => nofun, fun _ _ _ _ => nofun⟩
    · exact ⟨rfl, rfl, fun h => by cases h <;> contradiction, fun _ _ => nofun, fun _ _ _ _ => nofun⟩

example (n : Nat) (s : Bytes) :
    (demoProgram.codec .default { demoImpls with cap := fun _ _ => true } n .doc).dec s ≠ .panic :=
  (C68_program .default demoProgram _ (fun _ _ => rfl) demoProgram_tame n .doc).dec s

end Revision
