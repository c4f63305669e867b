import Verif.Model.DeriveWalk
import Verif.Suite.Derived

/-!
# The crate's own tests: walkers

What `/repo/tests/walk.rs`, `walker_optimised.rs`, `multi_field_variant_walk.rs`, `walk_field_wire_zero_copy.rs`,
`indexed_fields.rs`, `indexed.rs` and `skip_indexed_fast_path.rs` assert.  See `Verif/Suite/Builtin.lean` for what this
directory is.  Left out: that views borrow (C100), and `HashSet`/`HashMap` contents in the order of a hash table.
-/

namespace Revision.Suite

/-- What a test does with a walker succeeds with `a` and leaves `rest` to read. -/
def Walks [DecidableEq α] (m : Rd α) (b : Res Bytes) (a : α) (rest : Bytes := []) : Bool :=
  match b with
  | .ok b => decide (m b = .ok (a, rest))
  | _ => false

/-- It fails with that error. -/
def Stops (m : Rd α) (b : Res Bytes) (e : Err) : Bool :=
  match b with
  | .ok b => match m b with | .err e' => decide (e = e') | _ => false
  | _ => false

/-! ## Built-in types: `/repo/tests/walk.rs` -/

/-- `primitive_leaf_decode_matches_deserialize`, `primitive_leaf_skip_matches_skip_revisioned`. -/
example : Walks (do let w ← (.int .u64 : Ty Empty).walk .default; let v ← leafDecode (on (.int .u64)); pure (w, v))
      ((on (.int .u64)).enc 42) (.leaf, (42 : BitVec 64)) ∧
    Walks (do let w ← (.int .u128 : Ty Empty).walk .default; leafSkip (on (.int .u128)); pure w)
      ((on (.int .u128)).enc (BitVec.allOnes 128)) .leaf := by decide +kernel

/-- `Option<u32>`. -/
abbrev optU32 := on (.option (.int .u32))

/-- `option_walker_some_decode_skip_walk`, `option_walker_none_skip_does_not_overread`. -/
example : Walks (do let w ← OptionWalker.new .default; let v ← w.decode (on (.int .u32)); pure (w.isSome, v))
      (optU32.enc (some 7)) (true, some (7 : BitVec 32)) ∧
    Walks (do let w ← OptionWalker.new .default; w.skip (on (.int .u32))) (optU32.enc (some 7)) () ∧
    Walks (do let w ← OptionWalker.new .default; w.intoSome (leafDecode (on (.int .u32)))) (optU32.enc (some 7))
      (7 : BitVec 32) ∧
    Walks (do let w ← OptionWalker.new .default; w.skip (on (.int .u32)); pure w.isNone) (optU32.enc none) true := by
  decide +kernel

/-- All items of a sequence, each read with `m`. -/
def items (m : Rd β) : Nat → SeqWalker → Rd (List β)
  | 0, _ => pure []
  | n + 1, w => do
    let (v, w) ← w.item m
    match v with
    | some v => do return v :: (← items m n w)
    | none => pure []

/-- `seq_walker_iterates_decode_skip_mix`. -/
example : Walks (do
    let w ← SeqWalker.new .default
    let n := w.remaining
    let (a, w) ← w.item (on .string).dec
    let (b, w) ← w.item (on .string).dec
    let (c, w) ← w.item (on .string).dec
    let m := w.remaining
    w.skipRemaining (on .string).skip
    pure (n, [a, b, c], m))
    ((on (.vec .string)).enc ["one", "two", "three", "four", "five"])
    (5, [some "one", some "two", some "three"], 2) := by decide +kernel

/-- `seq_item_with_bytes_for_string_seq`. -/
example : Walks (do
    let w ← SeqWalker.new .default
    let (a, w) ← w.item (withLengthPrefixedBytes .default id)
    let (b, w) ← w.item (on .string).dec
    let (_, w) ← w.item (on .string).skip
    let (d, _) ← w.item (withLengthPrefixedBytes .default fun b => b.take 1 == raw "d")
    pure (a, b, d))
    ((on (.vec .string)).enc ["alpha", "beta", "gamma", "delta"])
    (some (raw "alpha"), some "beta", some true) := by decide +kernel

/-- `seq_walk_rejects_bulk_primitive_without_consuming_reader`, `seq_walk_rejects_bulk_uuid_…`: the outcome does not
depend on the input. -/
example (b : Bytes) : (.vec (.int .u32) : Ty Empty).walk .default b = .err .deserialize ∧
    (.vec .uuid : Ty Empty).walk .default b = .err .deserialize := ⟨rfl, rfl⟩

/-- `seq_walk_accepts_numeric_vec_when_specialised_vectors_disabled`. -/
example : Walks (do
    let _ ← (.vec (.int .u32) : Ty Empty).walk ⟨false, false⟩
    items (on (.int .u32)).dec 2 ⟨2⟩) ((Ty.codec ⟨false, false⟩ demoEnv (.vec (.int .u32))).enc ([7, 8] : List (BitVec 32)))
    ([7, 8] : List (BitVec 32)) := by decide +kernel

/-- `btreeset_walks_primitive_elements`, `hashset_walks_primitive_elements`, `binaryheap_walks_primitive_elements`. -/
example : Walks (do let w ← SeqWalker.new .default; items (on (.int .u32)).dec 9 w)
      ((on (.btreeSet (.int .u32))).enc ([1, 2, 3, 4] : List (BitVec 32))) ([1, 2, 3, 4] : List (BitVec 32)) ∧
    Walks (do let w ← SeqWalker.new .default; items (on (.int .u64)).dec 9 w)
      ((on (.hashSet (.int .u64))).enc ([10, 20, 30] : List (BitVec 64))) ([10, 20, 30] : List (BitVec 64)) ∧
    Walks (do let w ← SeqWalker.new .default; return (← items (on (.int .i32)).skip 9 w).length)
      (.ok [5, 6, 2, 8, 2, 10]) 5 := by decide +kernel

/-- `BTreeMap<String, u32>`. -/
abbrev mapC := on (.btreeMap .string (.int .u32))
abbrev mapKey := on .string
abbrev mapVal := on (.int .u32)
def greek : List (String × BitVec 32) := [("alpha", 1), ("beta", 2), ("gamma", 3)]
def greek4 : List (String × BitVec 32) := [("alpha", 1), ("beta", 2), ("delta", 3), ("epsilon", 4)]

/-- The loop of the tests: `f` on the key says whether to decode the value. -/
def loop (key : Rd κ) (f : κ → Bool) (val : Rd β) (skip : Rd Unit) : Nat → MapWalker → Rd (List β)
  | 0, _ => pure []
  | n + 1, w =>
    match w.nextEntry with
    | none => pure []
    | some e => do
      let (k, e) ← e.key key
      if f k then do
        let (v, w) ← e.value val
        return v :: (← loop key f val skip n w)
      else do
        let (_, w) ← e.value skip
        loop key f val skip n w

/-- All pairs. -/
def pairs (k : Codec κ) (v : Codec β) : Nat → MapWalker → Rd (List (κ × β))
  | 0, _ => pure []
  | n + 1, w =>
    match w.nextEntry with
    | none => pure []
    | some e => do
      let (p, w) ← e.decodePair k v
      return p :: (← pairs k v n w)

/-- `map_walker_full_iteration_matches_deserialize`, `map_walker_skip_value_for_unwanted_keys`,
`map_entry_with_key_bytes_zero_copy_iteration`. -/
example : Walks (do let w ← MapWalker.new .default; pairs mapKey mapVal 9 w) (mapC.enc greek) greek ∧
    Walks (do let w ← MapWalker.new .default; loop mapKey.dec (· == "b") mapVal.dec mapVal.skip 9 w)
      (mapC.enc [("a", 1), ("b", 2), ("c", 3)]) ([2] : List (BitVec 32)) ∧
    Walks (do
        let w ← MapWalker.new .default
        loop (withLengthPrefixedBytes .default id) (· == raw "beta") mapVal.dec mapVal.skip 9 w)
      (mapC.enc greek) ([2] : List (BitVec 32)) := by decide +kernel

/-- `map_entry_with_value_bytes_for_byte_values`. -/
example : Walks (do
    let w ← MapWalker.new .default
    loop mapKey.dec (· == "b") (withLengthPrefixedBytes .default id) (on (.vec (.int .u8))).skip 9 w)
    ((on (.btreeMap .string (.vec (.int .u8)))).enc [("a", (raw "first-value").map (·.toBitVec)),
      ("b", (raw "second-value-longer").map (·.toBitVec))]) [raw "second-value-longer"] := by decide +kernel

/-- `map_walker_find_by_key_consumes_after_match`, `map_walker_find_bytes_matches_find_for_string_keys`: the entries
after the match stay. -/
example : Walks (do
      let w ← MapWalker.new .default
      let found ← w.find mapKey mapVal fun k => cmpBytes (raw k) (raw "delta")
      let v ← mapVal.dec
      pure (found, v)) (mapC.enc greek4) (true, (3 : BitVec 32)) ([7] ++ raw "epsilon" ++ [4]) ∧
    Walks (do
      let w ← MapWalker.new .default
      let found ← w.findBytes .default mapKey mapVal fun k => cmpBytes k (raw "delta")
      let v ← mapVal.dec
      pure (found, v)) (mapC.enc greek4) (true, (3 : BitVec 32)) ([7] ++ raw "epsilon" ++ [4]) := by decide +kernel

/-- `map_walker_find_returns_none_consumes_all`, `map_walker_find_bytes_returns_none_consumes_all`. -/
example : Walks (do let w ← MapWalker.new .default; w.find mapKey mapVal fun k => cmpBytes (raw k) (raw "zzz"))
      (mapC.enc [("alpha", 1), ("beta", 2)]) false ∧
    Walks (do let w ← MapWalker.new .default; w.findBytes .default mapKey mapVal fun k => cmpBytes k (raw "zzz"))
      (mapC.enc [("alpha", 1), ("beta", 2)]) false := by decide +kernel

/-- `leaf_walker_with_bytes_matches_decode_for_string`, `…_for_pathbuf`. -/
example : Walks (leafWithBytes .default id) ((on .string).enc "hello, walker") (raw "hello, walker") ∧
    Walks (leafWithBytes .default id) ((on .path).enc (raw "/etc/passwd")) (raw "/etc/passwd") := by decide +kernel

/-- `map_entry_out_of_order_returns_error_without_io`: the value is still there after the failed call. -/
example : Walks (do
      let w ← MapWalker.new .default
      match w.nextEntry with
      | none => Rd.fail .io
      | some e =>
        let (_, e) ← e.key mapKey.skip
        let (v, _) ← e.value mapVal.dec
        pure (failure (e.expectCursor .beforeKey), v))
      (mapC.enc [("only", 42)]) (some .deserialize, (42 : BitVec 32)) := by decide +kernel

/-! ## Structs: `/repo/tests/walk.rs`, `walker_optimised.rs` -/

/-- The fields of a declaration, with default features. -/
def decls (fs : List (Field kinds)) : List (FieldDecl V) := fs.map (·.decl .default impls 2 (program.codec .default impls 2))
/-- The encoding of a struct. -/
def encS (h : List Entry) (fs : List (Field kinds)) (v : List V) : Res Bytes := (structC .default h (decls fs)).enc v
/-- The value of an integer or string field. -/
def num : V → Option Nat
  | ⟨.int _, v⟩ => some (BitVec.toNat v)
  | _ => none
def str : V → Option String
  | ⟨.string, v⟩ => some v
  | _ => none
/-- The `i`-th field. -/
def nth (fs : List (Field kinds)) (i : Nat) (h : i < fs.length := by decide) : FieldDecl V :=
  (fs[i]).decl .default impls 2 (program.codec .default impls 2)
abbrev walkS (h : List Entry) (fs : List (Field kinds)) : Rd StructRepr := walkStruct .default h (decls fs)
abbrev rev1 : List Entry := [⟨1, false, false⟩]

/-- `struct Document { name: String, count: u32 }`. -/
def document : List (Field kinds) := [plain "name" .string, plain "count" tU32]

/-- `derive_struct_walker_decodes_each_field_in_order`, `derive_struct_walker_skip_field_skips_correctly`. -/
example : Walks (do
      let w ← walkS rev1 document
      let (name, w) ← w.decodeField 0 (nth document 0)
      let (count, w) ← w.decodeField 1 (nth document 1)
      pure (w.revision 1, str name, num count))
      (encS rev1 document [⟨.string, "hello"⟩, u32v 42]) (1, some "hello", some 42) ∧
    Walks (do
      let w ← walkS rev1 document
      let w ← w.skipField (nth document 0)
      let (count, _) ← w.decodeField 1 (nth document 1)
      pure (num count))
      (encS rev1 document [⟨.string, "skip-me"⟩, u32v 99]) (some 99) := by decide +kernel

/-- `struct Sandwich { header: u16, body: BTreeMap<String, u32>, trailer: u32 }`. -/
def sandwich : List (Field kinds) :=
  [plain "header" (.int .u16), plain "body" (.btreeMap .string tU32), plain "trailer" tU32]

/-- `struct_walker_walks_into_nested_map`, `struct_walker_walk_field_lets_parent_continue_to_sibling`. -/
example : Walks (do
      let w ← walkS rev1 sandwich
      let (header, w) ← w.decodeField 0 (nth sandwich 0)
      let body ← w.walkField (do let m ← MapWalker.new .default; pairs mapKey mapVal 9 m) (nth sandwich 1)
      let (trailer, _) ← w.decodeField 2 (nth sandwich 2)
      pure (num header, body, num trailer))
    (encS rev1 sandwich [⟨.int .u16, (7 : BitVec 16)⟩, ⟨.btreeMap .string tU32, greek⟩, u32v 99])
    (some 7, greek, some 99) := by decide +kernel

/-- `struct NewShape { kind: u8, #[revision(start = 2)] flags: u8 }`. -/
def newShape : List (Field kinds) := [plain "kind" (.int .u8),
  ⟨"flags", { start := some 2 }, .int .u8, fun _ _ => .ok (0 : BitVec 8), fun _ _ _ _ => .panic⟩]

/-- `walker_accepts_older_wire_revision_with_default_for_added_field`, `walker_rejects_invalid_wire_revision`,
`deserialize_still_handles_older_wire_revision`. -/
example : Walks (do
      let w ← walkS (plainHistory 2) newShape
      let (kind, w) ← w.decodeField 0 (nth newShape 0)
      let (flags, w) ← w.decodeField 1 (nth newShape 1)
      pure (w.revision 2, num kind, num flags)) (.ok [1, 3]) (1, some 3, some 0) ∧
    Stops (walkS (plainHistory 2) newShape) (.ok [99, 0]) .deserialize ∧
    Walks (do return (← (structC .default (plainHistory 2) (decls newShape)).dec).map num) (.ok [1, 3])
      [some 3, some 0] := by decide +kernel

/-- `struct ConvertedFoo`, with its `convert_width`. -/
def convertedFoo : List (Field kinds) := [
  ⟨"width_old", { stop := some 2, convert := some "convert_width" }, tU32, fun _ _ => .panic, fun _ _ v _ =>
    .ok [⟨tU32, (v : BitVec 32) * 10⟩, ⟨tU32, (v : BitVec 32) + 1⟩]⟩,
  ⟨"width", { start := some 2 }, tU32, fun _ _ => .ok (0 : BitVec 32), fun _ _ _ _ => .panic⟩,
  ⟨"height", { start := some 2 }, tU32, fun _ _ => .ok (0 : BitVec 32), fun _ _ _ _ => .panic⟩]

/-- What the tests do with it. -/
def bothSizes : Rd (Nat × Option Nat × Option Nat) := do
  let w ← walkS (plainHistory 2) convertedFoo
  let (width, w) ← w.decodeField 0 (nth convertedFoo 1)
  let (height, w) ← w.decodeField 1 (nth convertedFoo 2)
  pure (w.revision 2, num width, num height)

/-- `walker_converts_for_convert_fn_type_at_older_revision`, `walker_materialised_walk_field_errors_with_useful_message`,
`walker_current_rev_path_for_convert_fn_type_uses_wire_mode`. -/
example : Walks bothSizes (.ok [1, 5]) (2, some 50, some 6) ∧
    Stops (do let w ← walkS (plainHistory 2) convertedFoo; w.walkField mapVal.dec (nth convertedFoo 1)) (.ok [1, 5])
      .conversion ∧
    Walks bothSizes (encS (plainHistory 2) convertedFoo [u32v 42, u32v 99]) (2, some 42, some 99) := by decide +kernel

abbrev opt1 : List Entry := [⟨1, true, false⟩]
abbrev optIndexed : List Entry := [⟨1, true, true⟩]
abbrev mixedHistory : List Entry := [⟨1, false, false⟩, ⟨2, true, false⟩]
def abc : List (Field kinds) := [plain "a" tU32, plain "b" tU32, plain "c" tU32]
def both (h : List Entry) : Rd (Option Nat × Option Nat) := do
  let w ← walkS h ab
  let (a, w) ← w.decodeField 0 (nth ab 0)
  let (b, _) ← w.decodeField 1 (nth ab 1)
  pure (num a, num b)

/-- `walker_decodes_optimised_struct`, `walker_decodes_indexed_optimised_struct`,
`walker_handles_mixed_history_optimised_rev`, `walker_handles_mixed_history_legacy_rev`. -/
example : Walks (both opt1) (encS opt1 ab [u32v 42, u32v 100]) (some 42, some 100) ∧
    Walks (do
      let w ← walkS optIndexed abc
      let (a, w) ← w.decodeField 0 (nth abc 0)
      let (b, w) ← w.decodeField 1 (nth abc 1)
      let (c, _) ← w.decodeField 2 (nth abc 2)
      pure (num a, num b, num c)) (encS optIndexed abc [u32v 10, u32v 20, u32v 30]) (some 10, some 20, some 30) ∧
    Walks (both mixedHistory) (encS mixedHistory ab [u32v 7, u32v 11]) (some 7, some 11) ∧
    Walks (both mixedHistory) (encS rev1 ab [u32v 7, u32v 11]) (some 7, some 11) := by decide +kernel

/-- `into_<field>_bytes`. -/
def fieldBytes (h : List Entry) (fs : List (Field kinds)) (i : Nat) (hi : i < fs.length := by decide) : Rd Bytes := do
  let w ← walkS h fs
  w.intoFieldBytes i (nth fs i hi)

/-- `into_field_bytes_on_indexed_borrowed_round_trips`, `…_handles_first_and_last_fields`,
`into_field_bytes_on_wire_round_trips`, `into_field_bytes_works_on_mixed_history_at_optimised_rev`. -/
example : Walks (fieldBytes optIndexed abc 1) (encS optIndexed abc [u32v 11, u32v 22, u32v 33]) [22] ∧
    Walks (fieldBytes optIndexed abc 0) (encS optIndexed abc [u32v 100, u32v 200, u32v 300]) [100] ∧
    Walks (fieldBytes optIndexed abc 2) (encS optIndexed abc [u32v 100, u32v 200, u32v 300]) [251, 44, 1] ∧
    Walks (fieldBytes opt1 ab 0) (encS opt1 ab [u32v 42, u32v 100]) [42] [100] ∧
    Walks (fieldBytes mixedHistory ab 0) (encS mixedHistory ab [u32v 7, u32v 11]) [7] [11] := by decide +kernel

/-- `struct GuardedField`. -/
def guarded : List (Field kinds) := [plain "a" tU32,
  ⟨"b", { start := some 2, default := some "default_b" }, tU32, fun _ _ => .ok (0 : BitVec 32), fun _ _ _ _ => .panic⟩]

/-- `into_field_bytes_errors_when_field_not_yet_introduced`. -/
example : Stops (fieldBytes (plainHistory 2) guarded 1) (.ok [1, 99]) .conversion := by decide +kernel

/-! ## Enums: `/repo/tests/walk.rs`, `walker_optimised.rs`, `multi_field_variant_walk.rs` -/

/-- A variant without attributes, or with a size. -/
def var (name : String) (fields : List (Field kinds)) (size : Option VariantSize := none) : Variant kinds :=
  ⟨name, { size := size }, fields, never⟩
abbrev vdecl (v : Variant kinds) : VariantDecl V := v.decl .default impls 2 (program.codec .default impls 2)
def encE (h : List Entry) (vs : List (Variant kinds)) (v : String) (l : List V) : Res Bytes :=
  (enumC .default h (vs.map vdecl)).enc ⟨v, l⟩
abbrev walkE (h : List Entry) (vs : List (Variant kinds)) : Rd EnumRepr := walkEnum .default h (vs.map vdecl)
abbrev theField (ty : Ty T) : FieldDecl V := (plain "field_0" ty).decl .default impls 2 (program.codec .default impls 2)

def square : Variant kinds := var "Square" [plain "field_0" tU32]
def circle : Variant kinds := var "Circle" [plain "field_0" tU32]
/-- `enum Shape`. -/
def shape : List (Variant kinds) := [square, var "Rectangle" [plain "w" tU32, plain "h" tU32], circle]

/-- `derive_enum_walker_exposes_discriminant`, `derive_enum_variant_table_is_emitted`,
`derive_enum_walker_skip_matches_skip_revisioned`. -/
example : Walks (do
      let w ← walkE rev1 shape
      let v ← w.intoVariant (shape.map vdecl) 1 (vdecl circle) mapVal.dec
      pure (w.revision 1, w.discriminant, w.isVariant (shape.map vdecl) 1 (vdecl circle), v))
      (encE rev1 shape "Circle" [u32v 7]) (1, 2, true, (7 : BitVec 32)) ∧
    (variantTable 1 (shape.map fun v => (vdecl v).sig) 1).map (·.1) = ["Square", "Rectangle", "Circle"] ∧
    variantName 1 (shape.map fun v => (vdecl v).sig) 1 2 = some "Circle" ∧
    fieldNames 1 ((decls document).map fun f => (f.name, f.opts)) 1 = ["name", "count"] ∧
    Walks (do
      let w ← walkE rev1 shape
      w.intoVariant (shape.map vdecl) 1 (vdecl square) mapVal.skip)
      (encE rev1 shape "Square" [u32v 13]) () ∧
    Walks (enumC .default rev1 (shape.map vdecl)).skip (encE rev1 shape "Square" [u32v 13]) () := by decide +kernel

def unitV : Variant kinds := var "Unit" [] (some .inline)
def varlenV : Variant kinds := var "Varlen" [plain "field_0" .string] (some .varlen)
/-- `enum OptEnum`. -/
def optEnum : List (Variant kinds) := [unitV, varlenV]

/-- `walker_on_optimised_enum_decodes_unit_variant`, `walker_on_optimised_enum_decodes_varlen_variant`,
`walker_decode_variant_errors_on_wrong_variant`, `walker_variant_view_works_on_optimised_enum`. -/
example : Walks (do
      let w ← walkE opt1 optEnum
      pure (w.discriminant, w.isVariant (optEnum.map vdecl) 1 (vdecl unitV), w.isVariant (optEnum.map vdecl) 1 (vdecl varlenV)))
      (encE opt1 optEnum "Unit" []) (0, true, false) ∧
    Walks (do
      let w ← walkE opt1 optEnum
      let v ← w.decodeVariant (optEnum.map vdecl) 1 (vdecl varlenV) (theField .string)
      pure (w.discriminant, w.isVariant (optEnum.map vdecl) 1 (vdecl unitV), str v))
      (encE opt1 optEnum "Varlen" [⟨.string, "hello"⟩]) (1, false, some "hello") ∧
    Stops (do
      let w ← walkE opt1 optEnum
      w.decodeVariant (optEnum.map vdecl) 1 (vdecl varlenV) (theField .string)) (encE opt1 optEnum "Unit" [])
      .deserialize ∧
    Walks (do
      let w ← walkE opt1 optEnum
      w.viewSingle (optEnum.map vdecl) 1 (vdecl varlenV) (theField .string))
      (encE opt1 optEnum "Varlen" [⟨.string, "hello"⟩]) ([5] ++ raw "hello") := by decide +kernel

def tup : Variant kinds := var "Tup" [plain "field_0" (.int .u64)]
/-- `enum LegacyEnum`. -/
def legacyEnum : List (Variant kinds) := [var "Unit" [], tup]

/-- `walker_decode_variant_works_on_legacy_enum`. -/
example : Walks (do
    let w ← walkE rev1 legacyEnum
    return num (← w.decodeVariant (legacyEnum.map vdecl) 1 (vdecl tup) (theField (.int .u64))))
    (encE rev1 legacyEnum "Tup" [⟨.int .u64, (0xDEADBEEF : BitVec 64)⟩]) (some 0xDEADBEEF) := by decide +kernel

def null : Variant kinds := var "Null" [] (some .inline)
def tup2 : Variant kinds := var "Tup" [plain "field_0" tU32, plain "field_1" .string] (some .varlen)
def named : Variant kinds := var "Named" [plain "id" tU32, plain "label" .string] (some .varlen)
/-- `enum Value`. -/
def valueEnum : List (Variant kinds) := [null, tup2, named]

/-- `multi_field_tuple_variant_view_borrows_body`, `multi_field_struct_variant_view_borrows_body`,
`multi_field_view_errors_on_wrong_variant`. -/
example : Walks (do let w ← walkE opt1 valueEnum; w.viewMulti (valueEnum.map vdecl) 1 (vdecl tup2))
      (encE opt1 valueEnum "Tup" [u32v 42, ⟨.string, "hello"⟩]) ([42, 5] ++ raw "hello") ∧
    Walks (do let w ← walkE opt1 valueEnum; w.viewMulti (valueEnum.map vdecl) 1 (vdecl named))
      (encE opt1 valueEnum "Named" [u32v 7, ⟨.string, "world"⟩]) ([7, 5] ++ raw "world") ∧
    Stops (do let w ← walkE opt1 valueEnum; w.viewMulti (valueEnum.map vdecl) 1 (vdecl tup2))
      (encE opt1 valueEnum "Null" []) .deserialize := by decide +kernel

/-! ## Indexed fields: `/repo/tests/walk_field_wire_zero_copy.rs`, `indexed_fields.rs` -/

def seqDoc : List (Field kinds) := [plain "id" tU32, plain "fields" (.btreeMap .string tU32) { indexedMap := true },
  plain "tags" (.vec .string) { indexedSeq := true }]

def names : List String := ["alpha", "bravo", "charlie", "delta", "echo", "foxtrot", "golf", "hotel"]
def offs : Nat → List Bytes → List Nat
  | _, [] => []
  | n, b :: l => n :: offs (n + b.length) l
def lenPrefixed (s : String) : Bytes := [UInt8.ofNat (raw s).length] ++ raw s
/-- The names in the order of their encodings, which start with the length. -/
def sorted : List String := ["echo", "golf", "alpha", "bravo", "delta", "hotel", "charlie", "foxtrot"]
/-- The bytes of the `fields` of `make_doc`: the value of a key is its length. -/
def namesMap : Bytes :=
  [1, 8] ++ packInterleaved ((offs 0 (sorted.map lenPrefixed)).zip (List.range 8)) ++
    le (sorted.map lenPrefixed).flatten.length ++ le 8 ++ (sorted.map lenPrefixed).flatten ++
    sorted.map fun s => UInt8.ofNat (raw s).length
def tagNames : List String := (List.range 10).map fun i => "tag-" ++ toString i
def tagsSeq : Bytes := [1, 10] ++ packOffsets (offs 0 (tagNames.map lenPrefixed)) ++ (tagNames.map lenPrefixed).flatten

/-- These are the bytes written for the fields of `make_doc`; sorting what is sorted changes nothing
(`entries_in_order`). -/
example : (indexedSeqC (fun _ => true) mapKey).enc tagNames = .ok tagsSeq := by decide +kernel
example : serializeIndexedEntries mapKey.enc mapVal.enc (sorted.map fun s => (s, BitVec.ofNat 32 (raw s).length)) =
    .ok namesMap := by
  refine (entries_in_order (pairs := sorted.map fun s => (lenPrefixed s, [UInt8.ofNat (raw s).length])) ?_ ?_).trans ?_ <;>
    decide +kernel

/-- The whole document. -/
def docBytes : Bytes := [1] ++ le (1 + namesMap.length + tagsSeq.length) ++ [42] ++ namesMap ++ tagsSeq

/-- `walk_indexed_map_field_borrows_from_wire_parent`, `walk_indexed_seq_field_borrows_from_wire_parent`,
`walk_field_advances_parent_cursor_correctly`, `indexed_seq_walker_can_random_access_elements`,
`indexed_field_walker_can_binary_search_keys`. -/
example : Walks (do
      let w ← walkS opt1 seqDoc
      let w ← w.skipField (nth seqDoc 0)
      let fields ← w.viewField 1 (nth seqDoc 1)
      let tags ← w.viewField 2 (nth seqDoc 2)
      let f ← Rd.lift (IndexedMapWalker.fromPayload fields)
      let v ← Rd.lift (f.findValueBytes (cmpBytes · (lenPrefixed "delta")))
      let m ← Rd.lift (IndexedSeqWalker.fromPayload tags)
      let e ← Rd.lift (m.elementBytes 5)
      pure (fields, v, m.len, m.isIndexed, e)) (.ok docBytes) (namesMap, some [5], 10, true, lenPrefixed "tag-5") ∧
    Walks (do
      let w ← walkS opt1 seqDoc
      let w ← w.skipField (nth seqDoc 0)
      let w ← w.skipField (nth seqDoc 1)
      w.viewField 2 (nth seqDoc 2)) (.ok docBytes) tagsSeq := by decide +kernel

/-! ## `/repo/tests/indexed.rs` -/

/-- `build_struct_payload`, `build_indexed_seq`, `build_indexed_map` on sorted entries. -/
def buildStruct (l : List Bytes) : Bytes := packOffsets (offs (4 * l.length) l) ++ l.flatten
def buildSeq (l : List Bytes) : Bytes := [1, UInt8.ofNat l.length] ++ packOffsets (offs 0 l) ++ l.flatten
def buildMap (l : List (Bytes × Bytes)) : Bytes :=
  [1, UInt8.ofNat l.length] ++ packInterleaved ((offs 0 (l.map (·.1))).zip (offs 0 (l.map (·.2)))) ++
    le (l.map (·.1)).flatten.length ++ le (l.map (·.2)).flatten.length ++ (l.map (·.1)).flatten ++ (l.map (·.2)).flatten

def four : Bytes := buildStruct [raw "alpha", raw "bravo", raw "charlie", raw "delta"]
def fieldOf (b : Bytes) (count i : Nat) : Res Bytes := do (← IndexedStructWalker.fromPayload b 2 count).fieldBytes i

/-- `struct_walker_accesses_all_fields_in_order`, `struct_walker_handles_field_count_at_threshold_boundary`. -/
example : (List.range 4).map (fieldOf four 4) = [raw "alpha", raw "bravo", raw "charlie", raw "delta"].map .ok ∧
    fieldOf (buildStruct (List.replicate 8 (raw "x"))) 8 0 = .ok (raw "x") ∧
    fieldOf (buildStruct (List.replicate 8 (raw "x"))) 8 7 = .ok (raw "x") := by decide +kernel

def elementOf (b : Bytes) (i : Nat) : Res Bytes := do (← IndexedSeqWalker.fromPayload b).elementBytes i
def ones : Bytes := buildSeq [raw "one", raw "two-two", raw "three-three-three"]

/-- `seq_walker_indexed_path_random_access`, `seq_walker_legacy_path_returns_body`, `empty_indexed_seq_is_handled`. -/
example : openedSeq ones = .ok (true, 3) ∧ elementOf ones 0 = .ok (raw "one") ∧
    elementOf ones 2 = .ok (raw "three-three-three") ∧
    (do return (← IndexedSeqWalker.fromPayload [0, 4, 1, 2, 3, 4]).body) = .ok [1, 2, 3, 4] ∧
    openedSeq [0, 4, 1, 2, 3, 4] = .ok (false, 4) ∧
    (do return (← IndexedSeqWalker.fromPayload (buildSeq [])).isEmpty) = .ok true := by decide +kernel

def valueOf (b : Bytes) (f : Bytes → Ordering) : Res (Option Bytes) := do
  (← IndexedMapWalker.fromPayload b).findValueBytes f
def octet : List (Bytes × Bytes) := (names.map raw).zip ((List.range 8).map fun i => [UInt8.ofNat (49 + i)])

/-- `map_walker_indexed_path_binary_search_finds_every_key`, `map_walker_returns_none_for_absent_key`. -/
example : octet.map (fun e => valueOf (buildMap octet) (cmpBytes · e.1)) = octet.map (fun e => .ok (some e.2)) ∧
    valueOf (buildMap [(raw "a", raw "1"), (raw "b", raw "2"), (raw "c", raw "3")]) (is "zz") = .ok none := by
  decide +kernel

/-- `map_walker_iter_visits_pairs_in_ascending_order`, `map_walker_find_compares_via_user_predicate`,
`predicate_matching_via_partial_ordering_works`. -/
example : (do
      match (← IndexedMapWalker.fromPayload (buildMap [(raw "a", raw "1"), (raw "b", raw "2"), (raw "c", raw "3")])).entries with
      | some l => l
      | none => .panic) = .ok [(raw "a", raw "1"), (raw "b", raw "2"), (raw "c", raw "3")] ∧
    valueOf (buildMap ((List.range 5).map fun i => (le i, raw "v"))) (fun k => cmpBytes k (le 3)) = .ok (some (raw "v")) ∧
    valueOf (buildMap ((List.range 16).map fun i => ([UInt8.ofNat (97 + i)], raw "x")))
      (fun k => match k with | c :: _ => compare c.toNat 106 | [] => .lt) = .ok (some (raw "x")) := by decide +kernel

/-! ## `/repo/tests/skip_indexed_fast_path.rs` -/

/-- `skip_indexed_seq_*`: empty, just below, at and above the threshold, elements of different lengths, a sibling. -/
example : let again (c : Codec String) (l : List String) (n : Nat) : Bool := Again (indexedSeqC (fun _ => true) c) l n
    again mapKey [] 2 ∧ again mapKey ["a", "b", "c"] 8 ∧
    again mapKey (List.replicate 7 "x") 16 ∧ again mapKey (List.replicate 8 "x") 50 ∧
    again mapKey ((List.range 16).map fun i => "element-" ++ toString i ++ "-" ++
      String.join (List.replicate (i % 4) "padding")) 416 ∧
    (indexedSeqC (fun _ => true) mapKey).skip (tagsSeq ++ [0xAA, 0xBB]) = .ok ((), [0xAA, 0xBB]) := by decide +kernel

/-- `skip_indexed_map_*` below and above the threshold, with bytes after them. -/
example : skipIndexedMap mapKey.skip mapVal.skip (few ++ [0xAA]) = .ok ((), [0xAA]) ∧
    skipIndexedMap mapKey.skip mapVal.skip (namesMap ++ [0xAA]) = .ok ((), [0xAA]) ∧
    skipIndexedMap mapKey.skip mapVal.skip (many ++ [0xAA]) = .ok ((), [0xAA]) ∧
    skipIndexedMap mapKey.skip mapVal.skip [0, 0] = .ok ((), []) := by decide +kernel

end Revision.Suite
