import Verif.Proofs.WalkAlloc
import Verif.Props.PathOld

/-! C123: the memory requested while a path is followed with the walkers.

As in `C94` and `C95`, a decoder asks an allocator for memory before it reads a collection, and the allocator
may refuse.  Where no refusal changes the result, whatever the input, no request is made. -/

namespace Revision

variable {ι : Type} [DecidableEq ι]

/-- C123: following a path requests memory for nothing but what is decoded, which is the value at its end and the
keys compared on the way: whatever the allocator refuses, if it refuses nothing to the types `leaf` then following a
path on which only those are decoded gives the same result, on any input, as with memory without end.
Missing for the full statement: `PathBuf` (`C123_path_false`). -/
theorem C123_walk_partial (cfg : Cfg) (P : Program ι) (I : Impls P.kind)
    (hP : ∀ i, ∀ t ∈ (P.body i).types, t.pathFree = true) (leaf : Ty ι → Prop)
    (hleaf : ∀ n t, leaf t →
      (t.codec cfg (I.env n (P.codec cfg I n))).dec =
        (t.codec cfg (I.unlimited.env n (P.codec cfg I.unlimited n))).dec ∧
      (t.codec cfg (I.env n (P.codec cfg I n))).enc =
        (t.codec cfg (I.unlimited.env n (P.codec cfg I.unlimited n))).enc)
    (p : List Step) (n : Nat) (t : Ty ι) (ht : t.pathFree = true) (hp : P.Sparing leaf p t) (s : Bytes) :
    P.walkPath cfg I p n t s = P.walkPath cfg I.unlimited p n t s :=
  congrFun (congrArg Rd.run
    (Program.walkPath_eq cfg P I hP (fun n t h => ⟨(hleaf n t h).1, (hleaf n t h).2⟩) p n t ht hp)) s

/-- C123 where what is decoded is of a flat type, like a number: no memory is requested at all. -/
theorem C123_flat_partial (cfg : Cfg) (P : Program ι) (I : Impls P.kind)
    (hP : ∀ i, ∀ t ∈ (P.body i).types, t.pathFree = true)
    (p : List Step) (n : Nat) (t : Ty ι) (ht : t.pathFree = true) (hp : P.Sparing (·.flat = true) p t) (s : Bytes) :
    P.walkPath cfg I p n t s = P.walkPath cfg I.unlimited p n t s :=
  C123_walk_partial cfg P I hP _
    (fun n t h =>
      have h := Ty.codec_flat (E := I.env n (P.codec cfg I n)) (c' := P.codec cfg I.unlimited n) cfg t h
      ⟨congrArg Codec.dec h, congrArg Codec.enc h⟩)
    p n t ht hp s

/-- ```
#[revisioned(revision(1), revision(2, optimised, indexed_struct))]
struct Row {
    body: Vec<String>,
    #[revision(start = 2, indexed_map)] tags: BTreeMap<u32, Vec<Row>>,
    id: u32,
    #[revision(start = 2)] name: String,
}
```
-/
def rowProgram : Program Unit where
  kind _ := .struct
  history _ := [⟨1, false, false⟩, ⟨2, true, true⟩]
  body _ := .struct [
    ⟨"body", {}, .vec .string, fun _ _ => .ok ([] : List String), fun _ _ _ v => .ok v⟩,
    ⟨"tags", { start := some 2, indexedMap := true }, .btreeMap (.int .u32) (.vec (.ext ())), fun _ _ => .ok ([] : List _),
      fun _ _ _ v => .ok v⟩,
    ⟨"id", {}, .int .u32, fun _ _ => .ok (0 : BitVec 32), fun _ _ _ v => .ok v⟩,
    ⟨"name", { start := some 2 }, .string, fun _ _ => .ok "", fun _ _ _ v => .ok v⟩]

/-- An allocator that refuses everything. -/
def rowImpls : Impls rowProgram.kind where
  cap := fun _ _ => false
  cmp := fun _ _ _ _ => .eq
  eq := fun _ _ _ _ => true

theorem rowProgram_pathFree : ∀ i, ∀ t ∈ (rowProgram.body i).types, t.pathFree = true := by
  intro i
  cases i
  decide

/-- A step to a field of a row. -/
theorem rowProgram_sparing {leaf : Ty Unit → Prop} (name : String) (p : List Step)
    (h : ∀ f ∈ [("body", Ty.vec Ty.string), ("id", .int .u32), ("name", .string)], f.1 = name → rowProgram.Sparing leaf p f.2)
    (hv : "tags" = name → p.isEmpty = false ∧ rowProgram.SparingView leaf p (.btreeMap (.int .u32) (.vec (.ext ())))) :
    rowProgram.Sparing leaf (.field name :: p) (.ext ()) := by
  unfold Program.Sparing
  intro nm hn
  cases hn
  suffices hs : ∀ f : Field rowProgram.kind, f ∈ [_, _, _, _] → f.opts.convert = none ∧ (f.name = name →
      if f.isIndexed = true then p.isEmpty = false ∧ rowProgram.SparingView leaf p f.ty else rowProgram.Sparing leaf p f.ty)
    from ⟨fun f hf => (hs f hf).1, fun f hf => (hs f hf).2⟩
  exact List.forall_mem_cons.2 ⟨⟨rfl, fun hn => h _ (.head _) hn⟩,
    List.forall_mem_cons.2 ⟨⟨rfl, fun hn => hv hn⟩,
      List.forall_mem_cons.2 ⟨⟨rfl, fun hn => h _ (.tail _ (.head _)) hn⟩,
        List.forall_mem_cons.2 ⟨⟨rfl, fun hn => h _ (.tail _ (.tail _ (.head _))) hn⟩, nofun⟩⟩⟩⟩

theorem rowPath_sparing : rowProgram.Sparing (·.flat = true) [.field "id"] (.ext ()) :=
  rowProgram_sparing _ _ (by
    intro f hf hn
    simp only [List.mem_cons, List.not_mem_nil, or_false] at hf
    rcases hf with rfl | rfl | rfl
    · exact absurd hn (by decide)
    · rfl
    · exact absurd hn (by decide)) (fun h => absurd h (by decide))

/-- The id of a row, in data of revision 1, past two strings that could not be read. -/
example : (∃ r, rowProgram.walkPath .default rowImpls [.field "id"] 1 (.ext ())
    [1, 2, 1, 97, 1, 98, 7] = .ok (some ⟨0, .int .u32, (7 : BitVec 32)⟩, r)) ∧
    (rowProgram.codec .default rowImpls 1 ()).dec [1, 2, 1, 97, 1, 98, 7] = .panic := by
  rw [C123_flat_partial .default rowProgram rowImpls rowProgram_pathFree _ 1 (.ext ()) rfl rowPath_sparing]
  exact ⟨⟨_, rfl⟩, rfl⟩

/-- The id of the second row in the vector under a key of an indexed map, in data of revision 2. -/
theorem rowDeepPath_sparing :
    rowProgram.Sparing (·.flat = true) [.field "tags", .key [5], .elem 1, .field "id"] (.ext ()) :=
  rowProgram_sparing _ _ (by
    intro f hf hn
    simp only [List.mem_cons, List.not_mem_nil, or_false] at hf
    rcases hf with rfl | rfl | rfl <;> exact absurd hn (by decide))
    fun _ => ⟨rfl, by
      unfold Program.SparingView
      refine ⟨fun _ h => (by cases h), fun b _ => ⟨rfl, ?_⟩⟩
      unfold Program.Sparing
      exact fun k _ => rowPath_sparing⟩

example : ∃ r, rowProgram.walkPath .default rowImpls [.field "tags", .key [5], .elem 1, .field "id"] 2 (.ext ())
    [2, 84, 0, 0, 0, 16, 0, 0, 0, 19, 0, 0, 0, 81, 0, 0, 0, 82, 0, 0, 0, 1, 1, 97, 0, 1, 5, 2,
      2, 24, 0, 0, 0, 16, 0, 0, 0, 19, 0, 0, 0, 21, 0, 0, 0, 22, 0, 0, 0, 1, 1, 97, 0, 0, 1, 1, 110,
      2, 24, 0, 0, 0, 16, 0, 0, 0, 19, 0, 0, 0, 21, 0, 0, 0, 22, 0, 0, 0, 1, 1, 97, 0, 0, 7, 1, 110, 3, 1, 110] =
      .ok (some ⟨0, .int .u32, (7 : BitVec 32)⟩, r) := by
  rw [C123_flat_partial .default rowProgram rowImpls rowProgram_pathFree _ 2 (.ext ()) rfl rowDeepPath_sparing]
  exact ⟨_, rfl⟩

/-- An allocator that grants the bytes of strings and nothing else. -/
def rowTextImpls : Impls rowProgram.kind := { rowImpls with cap := fun t _ => match t with
  | .int .u8 => true
  | _ => false }

/-- The name of a row, past a vector that could not be read. -/
example : ∃ r, rowProgram.walkPath .default rowTextImpls [.field "name"] 1 (.ext ())
    [2, 24, 0, 0, 0, 16, 0, 0, 0, 19, 0, 0, 0, 21, 0, 0, 0, 22, 0, 0, 0, 1, 1, 97, 0, 0, 7, 1, 110] =
      .ok (some ⟨0, .string, "n"⟩, r) := by
  rw [C123_walk_partial .default rowProgram rowTextImpls rowProgram_pathFree (· = .string)
    (fun n t h => by subst h; exact ⟨rfl, rfl⟩) _ 1 (.ext ()) rfl
    (rowProgram_sparing _ _ (by
      intro f hf hn
      simp only [List.mem_cons, List.not_mem_nil, or_false] at hf
      rcases hf with rfl | rfl | rfl
      · exact absurd hn (by decide)
      · exact absurd hn (by decide)
      · rfl) (fun h => absurd h (by decide)))]
  exact ⟨_, rfl⟩

/-- ```
#[revisioned(revision(1))]
struct At { file: PathBuf, id: u32 }
```
-/
def atProgram : Program Unit where
  kind _ := .struct
  history _ := [⟨1, false, false⟩]
  body _ := .struct [
    ⟨"file", {}, .path, fun _ _ => .ok ([] : Bytes), fun _ _ _ v => .ok v⟩,
    ⟨"id", {}, .int .u32, fun _ _ => .ok (0 : BitVec 32), fun _ _ _ v => .ok v⟩]

/-- C123 is false where a `PathBuf` is passed over, which decodes it. -/
theorem C123_path_false : ∃ (I : Impls atProgram.kind) (s : Bytes),
    atProgram.Sparing (·.flat = true) [.field "id"] (.ext ()) ∧
    atProgram.walkPath .default I [.field "id"] 1 (.ext ()) s = .panic ∧
    ∃ r, atProgram.walkPath .default I.unlimited [.field "id"] 1 (.ext ()) s =
      .ok (some ⟨0, .int .u32, (7 : BitVec 32)⟩, r) := by
  refine ⟨⟨fun _ _ => false, fun _ _ _ _ => .eq, fun _ _ _ _ => true⟩, [1, 1, 97, 7], ?_, rfl, _, rfl⟩
  unfold Program.Sparing
  intro nm hn
  cases hn
  exact ⟨forall_mem_pair rfl rfl, forall_mem_pair (fun h => absurd h (by decide)) (fun _ => rfl)⟩

/-- Without the condition on convert functions it is false as well: a row of the older revision is read and written
again before it is walked. -/
theorem C123_convert_false : ∃ (P : Program Unit) (I : Impls P.kind) (s : Bytes),
    (∀ i, ∀ t ∈ (P.body i).types, t.pathFree = true) ∧
    P.walkPath .default I [.field "id"] 1 (.ext ()) s = .panic ∧
    ∃ r, P.walkPath .default I.unlimited [.field "id"] 1 (.ext ()) s =
      .ok (some ⟨0, .int .u32, (7 : BitVec 32)⟩, r) := by
  refine ⟨⟨fun _ => .struct, fun _ => [⟨1, false, false⟩, ⟨2, false, false⟩], fun _ => .struct [
      ⟨"body", { stop := some 2, convert := some "drop_body" }, .string, fun _ _ => .ok "", fun _ _ _ v => .ok v⟩,
      ⟨"id", {}, .int .u32, fun _ _ => .ok (0 : BitVec 32), fun _ _ _ v => .ok v⟩]⟩,
    ⟨fun _ _ => false, fun _ _ _ _ => .eq, fun _ _ _ _ => true⟩, [1, 1, 97, 7], fun i => (by cases i; decide), rfl, _, rfl⟩

end Revision
