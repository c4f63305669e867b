import Verif.Proofs.PathOldProgram
import Verif.Props.Path

/-! # C108: following a path through data of earlier revisions

As C101, but the data was written when the types of the program were at earlier revisions. -/

namespace Revision

/-- C108: a path followed with the walkers of a program through data that an earlier version of the program wrote
leads to the same part as in the value the program reads from that data, or to none in both; it does not matter
what follows the value.  `I` and `I'` are what the two versions depend on besides the declarations.
Missing from the full property: the fields at which the walkers misread the data or stop, which
`Program.OpenAt` excludes (those of `C101_path_partial`, `C57_older_indexed_false`, `C57_converted_false`,
`C59_converted_false`, `C59_moved_discriminant_false`, `C70_added_field_false`, removed fields), and the declarations
`Program.Readable` excludes (`C73_round_trip_partial`, `C74_nested_migration_partial`). -/
theorem C108_path_partial {ι : Type} [DecidableEq ι] (cfg : Cfg) (P : Program ι) (I I' : Impls P.kind) (r : ι → Nat)
    (htrans : ∀ m t, Std.TransCmp (I'.cmp m t)) (heq : ∀ m t a, I'.eq m t a a = true) (hP : P.Readable cfg r)
    (hcur : P.Readable cfg P.current) (hcap : ∀ t k, I.cap t k = true → I'.cap t k = true) (p : List Step) (n m : Nat)
    (hnm : n ≤ m) (t : Ty ι) (hp : P.OpenAt cfg I I' r p t) (v : t.denote (Values P.kind n)) (b : Bytes)
    (hv : (t.codec cfg (I.env n ((P.asOf r).codec cfg I n))).valid v)
    (hb : (t.codec cfg (I.env n ((P.asOf r).codec cfg I n))).enc v = .ok b) (rest : Bytes)
    (v' : t.denote (Values P.kind m)) (rest' : Bytes)
    (hd : (t.codec cfg (I'.env m (P.codec cfg I' m))).dec (b ++ rest) = .ok (v', rest')) :
    ∃ q, P.walkPath cfg I' p m t (b ++ rest) = .ok (P.focus cfg I' p m t v', q) := by
  have hx := P.reads (w := false) cfg I I' r hP hcap n m hnm
  have hf := Ty.codec_reads (w := false) cfg (E := I.env n ((P.asOf r).codec cfg I n))
    (E' := I'.env m (P.codec cfg I' m)) hcap (P.migrate cfg I I' r n m) hx t
  have h := hf.dec v b hv hb rest
  rw [hd] at h
  obtain ⟨w, hw, he⟩ := Option.map_eq_some_iff.1 h.symm
  cases he
  exact P.walkPath_old cfg I I' r htrans heq hP hcur hcap p n m hnm t hp v b _ hv hb hw rest

/-! ### The demonstration -/

theorem demoNode_openAt (p : List Step)
    (hp : demoProgram.OpenAt .default demoImpls demoImpls demoOld p (.vec (.ext .tree))) :
    demoProgram.OpenAt .default demoImpls demoImpls demoOld (.variant "Node" :: p) (.ext .tree) := by
  intro ident hi
  cases hi
  refine .inl ⟨.inr (forall_mem_pair ⟨rfl, forall_mem_pair rfl rfl⟩ ⟨rfl, List.forall_mem_singleton.2 rfl⟩),
    forall_mem_pair (fun _ => ⟨rfl, forall_mem_pair (fun _ => rfl) (fun _ => rfl)⟩)
      (fun _ => ⟨rfl, List.forall_mem_singleton.2 (fun _ => rfl)⟩), fun h => (by cases h),
    forall_mem_pair (fun _ hi => absurd hi (by decide)) (fun _ _ => List.forall_mem_singleton.2 fun _ =>
      ⟨rfl, hp, fun _ => ⟨rfl, rfl⟩⟩)⟩

/-- The second child of a tree of revision 1. -/
example (rest : Bytes) : ∃ q, demoProgram.walkPath .default demoImpls [.variant "Node", .elem 1] 3 (.ext .tree)
    ([1, 1, 2, 1, 0, 5, 1, 1, 0] ++ rest) =
      .ok (some ⟨2, .ext .tree, (⟨"Node", [⟨.vec (.ext .tree), ([] : List (EnumVal _))⟩]⟩ : EnumVal _)⟩, q) :=
  C108_path_partial .default demoProgram demoImpls demoImpls demoOld demoImpls_trans demoImpls_eq
    (demoProgram_readable _ (.inl rfl) rfl) (demoProgram_readable _ (.inr rfl) rfl) (fun _ _ h => h)
    [.variant "Node", .elem 1] 3 3 (Nat.le_refl 3) (.ext .tree) (demoNode_openAt _ fun _ _ => ⟨rfl, trivial⟩) demoTree _
    demoTree_valid rfl rest demoTreeNew rest
    (Res.ok?_eq_some.1 (C74_nested_migration_partial .default demoProgram demoImpls demoImpls demoOld
      (demoProgram_readable _ (.inl rfl) rfl) (fun _ _ h => h) 3 3 (Nat.le_refl 3) .tree demoTree _ demoTree_valid rfl rest).1)

theorem demoTree_weighs_old : (demoProgram.asOf demoOld).Weighs .default demoImpls (.ext .tree) := by
  intro n v h
  cases n with
  | zero => exact nomatch (show Empty from v)
  | succ n =>
    obtain ⟨b, -, h⟩ := Res.bind_eq_ok.1 (show (do
      let b ← serializeEnumBody _ _ _ _
      pure (encU16 .default 1 ++ b) : Res Bytes) = .ok [] from h)
    cases h

/-- The path `.parts[k].Node[0]`, through the view of an indexed field into a tree of revision 1. -/
theorem demoPartPath_openAt (k : Nat) : demoProgram.OpenAt .default demoImpls demoImpls demoOld
    [.field "parts", .elem k, .variant "Node", .elem 0] (.ext .doc) := by
  intro name hn
  cases hn
  refine .inl ⟨.inl rfl, fun _ _ h => h, fun h => (by cases h), fun _ _ _ _ h => h, fun f hf _ hname => ?_⟩
  rcases List.mem_cons.1 hf with rfl | hf
  · exact absurd hname (by decide)
  rcases List.mem_cons.1 hf with rfl | hf
  · exact fun _ _ => ⟨demoTree_weighs_old, demoNode_openAt _ fun k _ => ⟨rfl, trivial⟩⟩
  · rw [List.mem_singleton.1 hf] at hname
    exact absurd hname (by decide)

/-- The leaf is found with the label it did not have when it was written. -/
example (rest : Bytes) : ∃ q, demoProgram.walkPath .default demoImpls
    [.field "parts", .elem 1, .variant "Node", .elem 0] 4 (.ext .doc)
    ([1, 23, 0, 0, 0, 1, 100, 0, 2, 1, 1, 2, 1, 0, 5, 1, 1, 0, 1, 1, 2, 1, 0, 5, 1, 1, 0, 0] ++ rest) =
      .ok (some ⟨2, .ext .tree, (⟨"Leaf", [⟨.int .u32, (5 : BitVec 32)⟩, ⟨.string, ""⟩]⟩ : EnumVal _)⟩, q) :=
  C108_path_partial .default demoProgram demoImpls demoImpls demoOld demoImpls_trans demoImpls_eq
    (demoProgram_readable _ (.inl rfl) rfl) (demoProgram_readable _ (.inr rfl) rfl) (fun _ _ h => h)
    _ 4 4 (Nat.le_refl 4) (.ext .doc) (demoPartPath_openAt 1) demoDoc _
    demoDoc_valid rfl rest demoDocNew rest
    (Res.ok?_eq_some.1 (C74_nested_migration_partial .default demoProgram demoImpls demoImpls demoOld
      (demoProgram_readable _ (.inl rfl) rfl) (fun _ _ h => h) 4 4 (Nat.le_refl 4) .doc demoDoc _ demoDoc_valid rfl rest).1)

/-! ### A converted struct -/

/-- ```
#[revisioned(revision(1), revision(2))]
struct Size { #[revision(end = 2, convert_fn = "widen")] small: u8, #[revision(start = 2)] size: u8 }
```
-/
def sizeProgram : Program Unit where
  kind _ := .struct
  history _ := [⟨1, false, false⟩, ⟨2, false, false⟩]
  body _ := .struct [
    ⟨"small", { stop := some 2, convert := some "widen" }, .int .u8, fun _ _ => .ok (0 : BitVec 8),
      fun _ _ a _ => .ok [⟨.int .u8, a⟩]⟩,
    ⟨"size", { start := some 2 }, .int .u8, fun _ _ => .ok (0 : BitVec 8), fun _ _ _ v => .ok v⟩]

def sizeImpls : Impls sizeProgram.kind where
  cap := fun _ _ => true
  cmp := fun _ _ _ _ => .eq
  eq := fun _ _ _ _ => true

theorem sizeProgram_readable (r : Unit → Nat) (h : r () = 1 ∨ r () = 2) : sizeProgram.Readable .default r where
  history i := by cases i; exact ⟨by decide, by decide, by decide⟩
  lower i := by cases i; show 1 ≤ r (); omega
  upper i := by cases i; show r () ≤ 2; omega
  body i := by
    cases i
    unfold Program.entryAt
    rcases h with h | h <;> rw [h] <;>
      exact ⟨by unfold DistinctFieldNames; decide, fun h => (by cases h), fun _ _ _ => .inl rfl⟩

theorem sizeProgram_rewrites : sizeProgram.Rewrites .default sizeImpls sizeImpls (fun _ => 1) () := by
  intro n m v v' hv hm
  match n, m with
  | 0, _ => exact nomatch (show Empty from v)
  | n + 1, 0 => cases hm
  | n + 1, m + 1 =>
    match v, hv, hm with
    | [⟨.int .u8, a⟩], _, hm =>
      cases (show some ([⟨.int .u8, a⟩] : List (DynAt sizeProgram.kind m)) = some v' from hm)
      exact ⟨⟨⟨_, rfl, trivial⟩, rfl⟩, _, rfl⟩

def sizeSeven : Values sizeProgram.kind 1 () := ([⟨.int .u8, (7 : BitVec 8)⟩] : List _)

/-- The size is found where the small size was. -/
example (rest : Bytes) : ∃ q, sizeProgram.walkPath .default sizeImpls [.field "size"] 1 (.ext ())
    ([1, 7] ++ rest) = .ok (some ⟨0, .int .u8, (7 : BitVec 8)⟩, q) :=
  C108_path_partial .default sizeProgram sizeImpls sizeImpls (fun _ => 1) (fun _ _ => constEq_trans) (fun _ _ _ => rfl)
    (sizeProgram_readable _ (.inl rfl)) (sizeProgram_readable _ (.inr rfl)) (fun _ _ h => h)
    [.field "size"] 1 1 (Nat.le_refl 1) (.ext ())
    (fun name _ => .inr ⟨(by decide : (1 : Nat) ≠ 2), ⟨_, .head _, (by simp)⟩, rfl, sizeProgram_rewrites, rfl,
      forall_mem_pair (fun _ => ⟨rfl, rfl⟩) (fun _ => ⟨rfl, rfl⟩)⟩)
    sizeSeven [1, 7] ⟨⟨_, rfl, trivial⟩, rfl⟩ rfl rest sizeSeven rest rfl

end Revision
