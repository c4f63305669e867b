import Verif.Proofs.PathProgram
import Verif.Props.Program

/-! # C101: following a path through a serialised value

A path goes through options, results, collections, maps (by position or by the bytes of a key), derived
types and the views of indexed fields.  `Program.focus` says which part of a
value it leads to, `Program.walkPath` follows it with the walkers (`Spec/Path`). -/

namespace Revision

/-- C101: a path followed with the walkers through a serialised value leads to the same part as in the
value itself, or to none in both; nothing but that part is decoded, and it does not matter what follows
the value.  Missing from the full property: the fields at which the walkers misread the data or stop, which
`Program.Open` excludes (`C29`, `C96_weightless_false`, `C57_fixed_false`, `C57_legacy_indexed_false`,
`C57_indexed_field_false`, `C70_fixed_false`), positions in the views of maps and sets, the declarations
`Program.Readable` excludes (`C73_round_trip_partial`), and data of earlier revisions. -/
theorem C101_path_partial {ι : Type} [DecidableEq ι] (cfg : Cfg) (P : Program ι) (I : Impls P.kind)
    (htrans : ∀ n t, Std.TransCmp (I.cmp n t)) (heq : ∀ n t a, I.eq n t a a = true)
    (hP : P.Readable cfg P.current) (p : List Step) (n : Nat) (t : Ty ι)
    (hp : P.Open cfg I p t) (v : t.denote (Values P.kind n)) (b : Bytes)
    (hv : (t.codec cfg (I.env n (P.codec cfg I n))).valid v)
    (hb : (t.codec cfg (I.env n (P.codec cfg I n))).enc v = .ok b) (rest : Bytes) :
    ∃ r, P.walkPath cfg I p n t (b ++ rest) = .ok (P.focus cfg I p n t v, r) :=
  Program.walkPath_finds cfg P I htrans heq hP p n t hp v b hv hb rest

/-! ### The demonstration -/

theorem demoImpls_eq (n : Nat) (t : Ty DemoType) (a : t.denote (Values demoProgram.kind n)) :
    demoImpls.eq n t a a = true := rfl

/-- The path `.Node[0].Node[1]`. -/
def demoPath : List Step := [.variant "Node", .elem 0, .variant "Node", .elem 1]

theorem demoNode_open (p : List Step) (hp : demoProgram.Open .default demoImpls p (.vec (.ext .tree))) :
    demoProgram.Open .default demoImpls (.variant "Node" :: p) (.ext .tree) := by
  intro ident hi v hv _ hvi f hf _
  cases hi
  rcases List.mem_cons.1 hv with rfl | hv
  · exact absurd hvi (by decide)
  · rw [List.mem_singleton.1 hv] at hf
    rw [List.mem_singleton.1 hf]
    exact ⟨hp, fun _ => ⟨rfl, rfl⟩⟩

theorem demoPath_open : demoProgram.Open .default demoImpls demoPath (.ext .tree) :=
  demoNode_open _ fun _ _ => ⟨rfl, demoNode_open _ fun _ _ => ⟨rfl, trivial⟩⟩

/-- `Node([Node([Leaf { value: 5, label: "" }, Node([])])])`. -/
def demoNested : Values demoProgram.kind 4 .tree :=
  (⟨"Node", [⟨.vec (.ext .tree), ([demoTreeNew] : List _)⟩]⟩ : EnumVal _)

theorem demoNested_valid : (demoProgram.codec .default demoImpls 4 .tree).valid demoNested := by
  refine ⟨1, _, mem_variantArms.2 ⟨.tail _ (.head _), rfl, rfl⟩, rfl, ⟨⟨_, rfl, ?_⟩, rfl⟩, fun h => by cases h⟩
  exact ⟨by decide, fun _ => rfl, fun a ha => by rw [List.mem_singleton.1 ha]; exact demoTreeNew_valid⟩

/-- The path leads to the empty node. -/
example : demoProgram.focus .default demoImpls demoPath 4 (.ext .tree) demoNested =
    some ⟨2, .ext .tree, (⟨"Node", [⟨.vec (.ext .tree), ([] : List (EnumVal _))⟩]⟩ : EnumVal _)⟩ := rfl

example (rest : Bytes) : ∃ r, demoProgram.walkPath .default demoImpls demoPath 4 (.ext .tree)
    ([2, 1, 1, 2, 1, 2, 2, 0, 5, 0, 2, 1, 0] ++ rest) =
      .ok (some ⟨2, .ext .tree, (⟨"Node", [⟨.vec (.ext .tree), ([] : List (EnumVal _))⟩]⟩ : EnumVal _)⟩, r) :=
  C101_path_partial .default demoProgram demoImpls demoImpls_trans demoImpls_eq (demoProgram_readable _ (.inr rfl) rfl) demoPath 4
    (.ext .tree) demoPath_open demoNested _ demoNested_valid rfl rest

/-- A document after which comes another one. -/
def demoDocs : Values demoProgram.kind 5 .doc :=
  ([⟨.string, "c"⟩, ⟨.vec (.ext .tree), ([] : List _)⟩, ⟨.option (.wrap (.ext .doc)), (some demoDocNew : Option _)⟩] :
    List _)

/-- The path `.next?.title`. -/
def demoDocPath : List Step := [.field "next", .some, .field "title"]

theorem demoDocPath_open : demoProgram.Open .default demoImpls demoDocPath (.ext .doc) := by
  intro name hn
  cases hn
  refine ⟨fun h => (by cases h), fun f hf _ hname => ?_⟩
  rcases List.mem_cons.1 hf with rfl | hf
  · exact absurd hname (by decide)
  rcases List.mem_cons.1 hf with rfl | hf
  · exact absurd hname (by decide)
  rw [List.mem_singleton.1 hf]
  intro _ name hn
  cases hn
  refine ⟨fun h => (by cases h), fun f hf _ hname => ?_⟩
  rcases List.mem_cons.1 hf with rfl | hf
  · trivial
  rcases List.mem_cons.1 hf with rfl | hf
  · exact absurd hname (by decide)
  · rw [List.mem_singleton.1 hf] at hname
    exact absurd hname (by decide)

theorem demoDocNew_valid : (demoProgram.codec .default demoImpls 4 .doc).valid demoDocNew :=
  ⟨⟨_, rfl, by decide, fun _ => rfl⟩,
    ⟨_, rfl, by decide, rfl, forall_mem_pair demoTreeNew_valid demoTreeNew_valid,
      forall_mem_pair (fun b hb => by cases hb; decide) (fun b hb => by cases hb; decide)⟩,
    ⟨_, rfl, trivial⟩, rfl⟩

theorem demoDocs_valid : (demoProgram.codec .default demoImpls 5 .doc).valid demoDocs :=
  ⟨⟨_, rfl, by decide, fun _ => rfl⟩,
    ⟨_, rfl, by decide, rfl, List.forall_mem_nil _, List.forall_mem_nil _⟩,
    ⟨_, rfl, demoDocNew_valid⟩, rfl⟩

example (rest : Bytes) : ∃ b r, (demoProgram.codec .default demoImpls 5 .doc).enc demoDocs = .ok b ∧
    demoProgram.walkPath .default demoImpls demoDocPath 5 (.ext .doc) (b ++ rest) = .ok (some ⟨3, .string, "d"⟩, r) := by
  obtain ⟨r, hr⟩ := C101_path_partial .default demoProgram demoImpls demoImpls_trans demoImpls_eq
    (demoProgram_readable _ (.inr rfl) rfl) demoDocPath 5 (.ext .doc) demoDocPath_open demoDocs _ demoDocs_valid rfl rest
  exact ⟨_, r, rfl, hr⟩

/-- A tree takes at least the byte of its revision. -/
theorem demoTree_weighs : demoProgram.Weighs .default demoImpls (.ext .tree) := by
  intro n v h
  cases n with
  | zero => exact nomatch (show Empty from v)
  | succ n =>
    obtain ⟨b, -, h⟩ := Res.bind_eq_ok.1 (show (do
      let b ← serializeEnumBody _ _ _ _
      pure (encU16 .default 2 ++ b) : Res Bytes) = .ok [] from h)
    cases h

/-- The path `.parts[k].Node[1]`, which starts in the view of the indexed field `parts`. -/
def demoPartPath (k : Nat) : List Step := [.field "parts", .elem k, .variant "Node", .elem 1]

theorem demoPartPath_open (k : Nat) : demoProgram.Open .default demoImpls (demoPartPath k) (.ext .doc) := by
  intro name hn
  cases hn
  refine ⟨fun h => (by cases h), fun f hf _ hname => ?_⟩
  rcases List.mem_cons.1 hf with rfl | hf
  · exact absurd hname (by decide)
  rcases List.mem_cons.1 hf with rfl | hf
  · exact fun _ _ => ⟨demoTree_weighs, demoNode_open _ fun k _ => ⟨rfl, trivial⟩⟩
  · rw [List.mem_singleton.1 hf] at hname
    exact absurd hname (by decide)

/-- A document with nine trees, enough for an offset table. -/
def demoParts : Values demoProgram.kind 4 .doc :=
  ([⟨.string, "e"⟩, ⟨.vec (.ext .tree), List.replicate 9 demoTreeNew⟩,
    ⟨.option (.wrap (.ext .doc)), (none : Option _)⟩] : List _)

theorem demoParts_valid : (demoProgram.codec .default demoImpls 4 .doc).valid demoParts :=
  ⟨⟨_, rfl, by decide, fun _ => rfl⟩,
    ⟨_, rfl, by decide, rfl, fun a ha => by rw [List.eq_of_mem_replicate ha]; exact demoTreeNew_valid,
      fun a ha b hb => by rw [List.eq_of_mem_replicate ha] at hb; cases hb; decide⟩,
    ⟨_, rfl, trivial⟩, rfl⟩

/-- The path leads to the second child of the eighth tree; there is no tenth tree. -/
example (rest : Bytes) : ∃ b r r', (demoProgram.codec .default demoImpls 4 .doc).enc demoParts = .ok b ∧
    demoProgram.walkPath .default demoImpls (demoPartPath 7) 4 (.ext .doc) (b ++ rest) =
      .ok (some ⟨2, .ext .tree, (⟨"Node", [⟨.vec (.ext .tree), ([] : List (EnumVal _))⟩]⟩ : EnumVal _)⟩, r) ∧
    demoProgram.walkPath .default demoImpls (demoPartPath 9) 4 (.ext .doc) (b ++ rest) = .ok (none, r') := by
  have h := fun b hb k => C101_path_partial .default demoProgram demoImpls demoImpls_trans demoImpls_eq
    (demoProgram_readable _ (.inr rfl) rfl) (demoPartPath k) 4 (.ext .doc) (demoPartPath_open k) demoParts b
    demoParts_valid hb rest
  have he : ((demoProgram.codec .default demoImpls 4 .doc).enc demoParts).ok?.isSome = true := by decide +kernel
  cases hb : (demoProgram.codec .default demoImpls 4 .doc).enc demoParts with
  | ok b =>
    obtain ⟨r, hr⟩ := h b hb 7
    obtain ⟨r', hr'⟩ := h b hb 9
    exact ⟨b, r, r', rfl, hr, hr'⟩
  | _ => rw [hb] at he; cases he

/-- A map entered by the bytes of a key: the entries before it are passed over, and the value is read. -/
example (rest : Bytes) : ∃ r, demoProgram.walkPath .default demoImpls [.key [7], .some] 0
    (.btreeMap (.int .u8) (.option .string)) ([2, 3, 0, 7, 1, 1, 0x61] ++ rest) = .ok (some ⟨0, .string, "a"⟩, r) :=
  C101_path_partial .default demoProgram demoImpls demoImpls_trans demoImpls_eq
    (demoProgram_readable _ (.inr rfl) rfl) [.key [7], .some] 0 (.btreeMap (.int .u8) (.option .string))
    ⟨fun _ h => (by cases h), fun _ _ _ => trivial⟩ [((3 : BitVec 8), none), ((7 : BitVec 8), some "a")] _
    ⟨by decide, rfl, forall_mem_pair ⟨trivial, trivial⟩ ⟨trivial, ⟨by decide, fun _ => rfl⟩⟩, by
      refine .cons (fun b hb => ?_) (.cons (fun b hb => by cases hb) .nil)
      rw [List.mem_singleton.1 hb]; rfl⟩ rfl rest

end Revision
