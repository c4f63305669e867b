import Verif.Model.Program
import Verif.Suite.Optimised

/-!
# The crate's own tests: derived types

The types declared in `/repo/tests/migration.rs`, `test.rs`, `macro_optimised.rs`, `per_field_fixed.rs`,
`per_field_specialised.rs` and `skip.rs`, and what those tests assert about them.  See `Verif/Suite/Builtin.lean` for
what this directory is.
-/

namespace Revision.Suite

/-- The types of the tests. -/
inductive T where
  | onlyRev1 | legacyAndOptimised | optimisedFromDayOne | threeRevisions | shadow2 | growsAcrossBoundary | onlyA
  | pinIndexedStruct | pinOptimisedEnum | innerLegacy | innerOptimised | outerLegacy | outerOptimised
  | variantLifecycle | shadowEnum | inner2 | outer2
  | testEnum | testUnit | testTuple1 | tester1 | tester2 | tester3 | tester4 | oneUsize
  | optimisedEnum | mixed | allInts | doc | manyVecs
  | evolvingV1 | evolving | evolvingEnumV1 | evolvingEnum
  deriving DecidableEq

/-- Structs and enums. -/
def kinds : T → Kind
  | .pinOptimisedEnum | .variantLifecycle | .shadowEnum | .testEnum | .optimisedEnum | .evolvingEnumV1
  | .evolvingEnum => .enum
  | _ => .struct

/-- A field without `default_fn` or `convert_fn` that is never absent. -/
def plain (name : String) (ty : Ty T) (opts : FieldOptions := {}) : Field kinds :=
  ⟨name, opts, ty, fun _ _ => .panic, fun _ _ _ _ => .panic⟩

/-- A removed field whose `convert_fn` ignores the value. -/
def gone (name : String) (ty : Ty T) (opts : FieldOptions) : Field kinds :=
  ⟨name, opts, ty, fun _ _ => .panic, fun _ _ _ this => .ok this⟩

/-- `fn(…) -> Result<Self, Error>` of a variant that is never removed. -/
def never (n : Nat) (_ : List (DynAt kinds n)) (_ : Nat) : Res (EnumVal (DynAt kinds n)) := .panic

/-- The integer types of fields. -/
abbrev tU32 : Ty T := .int .u32

/-- `a: u32, b: u32`. -/
def ab : List (Field kinds) := [plain "a" tU32, plain "b" tU32]

/-- `revision(1)`, …, `revision(n)`. -/
def plainHistory (n : Nat) : List Entry := (List.range n).map fun i => ⟨i + 1, false, false⟩

/-- `TestTuple1(vec![1039481, 30459830])`. -/
def tuple1 (n : Nat) : Res (Values kinds n .testTuple1) :=
  match n with
  | 0 => .panic
  | n + 1 => .ok ([⟨.vec (.int .i64), ([1039481, 30459830] : List (BitVec 64))⟩] : List (DynAt kinds n))

/-- `TestUnit::default()`. -/
def unit1 (n : Nat) : Res (Values kinds n .testUnit) :=
  match n with
  | 0 => .panic
  | n + 1 => .ok ([] : List (DynAt kinds n))

/-- The declarations. -/
def program : Program T where
  kind := kinds
  history
    | .legacyAndOptimised | .growsAcrossBoundary | .innerOptimised | .outerOptimised | .variantLifecycle =>
      [⟨1, false, false⟩, ⟨2, true, false⟩]
    | .optimisedFromDayOne | .pinOptimisedEnum | .inner2 | .outer2 | .optimisedEnum => [⟨1, true, false⟩]
    | .threeRevisions => [⟨1, false, false⟩, ⟨2, false, false⟩, ⟨3, true, false⟩]
    | .pinIndexedStruct => [⟨1, true, true⟩]
    | .shadow2 | .tester2 | .evolving | .evolvingEnum => plainHistory 2
    | .testEnum | .tester3 => plainHistory 3
    | .tester4 => plainHistory 4
    | _ => plainHistory 1
  body
    | .onlyRev1 | .legacyAndOptimised | .optimisedFromDayOne | .threeRevisions | .shadow2 => .struct ab
    | .growsAcrossBoundary => .struct [plain "a" tU32,
        ⟨"b", { start := some 2, default := some "default_b" }, tU32, fun _ _ => .ok (42 : BitVec 32),
          fun _ _ _ _ => .panic⟩]
    | .onlyA | .inner2 => .struct [plain "a" tU32]
    | .pinIndexedStruct => .struct [plain "a" tU32, plain "b" tU32, plain "c" tU32]
    | .pinOptimisedEnum => .enum [⟨"Greeting", { size := some .varlen }, [plain "field_0" .string], never⟩]
    | .innerLegacy | .innerOptimised => .struct [plain "x" tU32, plain "y" tU32]
    | .outerLegacy => .struct [plain "tag" tU32, plain "inner" (.ext .innerOptimised)]
    | .outerOptimised => .struct [plain "tag" tU32, plain "inner" (.ext .innerLegacy)]
    | .outer2 => .struct [plain "tag" tU32, plain "inner" (.ext .inner2)]
    | .variantLifecycle => .enum [
        ⟨"Old", { stop := some 2, convert := some "migrate_old", size := some (.fixed 8) },
          [plain "field_0" (.array 8 (.int .u8))], fun _ fields _ => .ok ⟨"New", fields⟩⟩,
        ⟨"New", { start := some 1, size := some (.fixed 8) }, [plain "field_0" (.array 8 (.int .u8))], never⟩]
    | .shadowEnum => .enum [⟨"Old", {}, [plain "field_0" (.array 8 (.int .u8))], never⟩,
        ⟨"New", {}, [plain "field_0" (.array 8 (.int .u8))], never⟩]
    | .testEnum => .enum [
        ⟨"Zero", {}, [], never⟩,
        ⟨"One", { stop := some 2, convert := some "upgrade_one" }, [plain "field_0" tU32],
          fun _ fields _ =>
            match fields with
            | [⟨.int .u32, v⟩] => .ok ⟨"Two", [⟨.int .u64, (v : BitVec 32).setWidth 64⟩]⟩
            | _ => .panic⟩,
        ⟨"Two", { start := some 2 }, [plain "field_0" (.int .u64)], never⟩,
        ⟨"Three", { start := some 2 }, [plain "a" (.int .i64),
          -- `upgrade_three_b` widens the `f32`, which is not modelled; no test gets there.
          ⟨"b", { stop := some 3, convert := some "upgrade_three_b" }, .float .f32, fun _ _ => .panic, fun _ _ _ _ => .panic⟩,
          ⟨"c", { start := some 3, default := some "default_three_c" }, .float .f64, fun _ _ => .ok (0 : BitVec 64),
            fun _ _ _ _ => .panic⟩,
          ⟨"d", { start := some 3, default := some "default_three_d" }, .string, fun _ _ => .ok "Foo",
            fun _ _ _ _ => .panic⟩], never⟩,
        ⟨"Four", { stop := some 3, convert := some "upgrade_four", fieldsName := some "OldTestEnumFourFields" }, [],
          fun _ _ _ => .ok ⟨"Four", [⟨.int .usize, (0 : BitVec 64)⟩]⟩⟩,
        ⟨"Four", { start := some 3 }, [plain "field_0" (.int .usize)], never⟩,
        ⟨"Five", {}, [
          ⟨"field_0", { stop := some 3, convert := some "upgrade_five_field" }, .int .u64, fun _ _ => .panic,
            fun _ _ v _ => .ok [⟨.int .i64, (v : BitVec 64)⟩]⟩,
          ⟨"field_1", { start := some 3 }, .int .i64, fun _ _ => .ok (0 : BitVec 64), fun _ _ _ _ => .panic⟩], never⟩]
    | .testUnit => .struct []
    | .testTuple1 => .struct [plain "field_0" (.vec (.int .i64))]
    | .tester1 => .struct [plain "usize_1" (.int .usize) { start := some 1 }, plain "u16_1" (.int .u16),
        plain "u64_1" (.int .u64), plain "i8_1" (.int .i8), plain "i32_1" (.int .i32), plain "f32_1" (.float .f32),
        plain "f64_1" (.float .f64), plain "char_1" .char, plain "string_1" .string, plain "enum_1" (.ext .testEnum),
        plain "option_1" (.option (.int .u8)), plain "box_1" (.wrap .string)]
    | .tester2 => .struct [plain "usize_1" (.int .usize) { start := some 2 }, plain "isize_1" (.int .isize),
        plain "u16_1" (.int .u16), plain "u64_1" (.int .u64), plain "i8_1" (.int .i8), plain "i16_1" (.int .i16),
        plain "i32_1" (.int .i32), plain "i64_1" (.int .i64), plain "f32_1" (.float .f32), plain "f64_1" (.float .f64),
        plain "char_1" .char, plain "bool_1" .bool, plain "string_1" .string, plain "enum_1" (.ext .testEnum),
        plain "option_1" (.option (.int .u8)), plain "box_1" (.wrap .string)]
    | .tester3 => .struct [plain "usize_1" (.int .usize) { start := some 3 }, plain "isize_1" (.int .isize),
        plain "u16_1" (.int .u16), plain "i8_1" (.int .i8), plain "i32_1" (.int .i32), plain "f32_1" (.float .f32),
        plain "f64_1" (.float .f64), plain "char_1" .char, plain "bool_1" .bool, plain "string_1" .string,
        plain "enum_1" (.ext .testEnum), plain "option_1" (.option (.int .u8)), plain "vec_1" (.vec .char),
        plain "unit_1" (.ext .testUnit), plain "tuple_1" (.ext .testTuple1), plain "box_1" (.wrap .string),
        plain "wrapping_1" (.wrap tU32)]
    | .tester4 => .struct [plain "usize_1" (.int .usize),
        gone "isize_1" (.int .isize) { start := some 2, stop := some 4, convert := some "convert_isize_1" },
        plain "u16_1" (.int .u16),
        gone "u64_1" (.int .u64) { stop := some 3, convert := some "convert_u64_1" },
        plain "i8_1" (.int .i8),
        gone "i16_1" (.int .i16) { start := some 2, stop := some 3, convert := some "convert_i16_1" },
        plain "i32_1" (.int .i32),
        gone "i64_1" (.int .i64) { start := some 2, stop := some 3, convert := some "convert_i64_1" },
        plain "f32_1" (.float .f32), plain "f64_1" (.float .f64), plain "char_1" .char,
        ⟨"bool_1", { start := some 2, default := some "default_bool" }, .bool, fun _ _ => .ok true, fun _ _ _ _ => .panic⟩,
        plain "string_1" .string, plain "enum_1" (.ext .testEnum), plain "option_1" (.option (.int .u8)),
        gone "vec_1" (.vec .char) { start := some 3, stop := some 4, convert := some "convert_vec_1" },
        ⟨"unit_1", { start := some 3 }, .ext .testUnit, fun n _ => unit1 n, fun _ _ _ _ => .panic⟩,
        ⟨"tuple_1", { start := some 3, default := some "default_tuple_1" }, .ext .testTuple1, fun n _ => tuple1 n,
          fun _ _ _ _ => .panic⟩,
        plain "box_1" (.wrap .string),
        ⟨"wrapping_1", { start := some 3, default := some "default_wrapping_1" }, .wrap tU32,
          fun _ _ => .ok (19348719 : BitVec 32), fun _ _ _ _ => .panic⟩]
    | .oneUsize => .struct [plain "usize_1" (.int .usize)]
    | .optimisedEnum => .enum [
        ⟨"Unit", { size := some .inline }, [], never⟩,
        ⟨"WithBytes", { size := some (.fixed 8) }, [plain "field_0" (.array 8 (.int .u8))], never⟩,
        ⟨"WithString", { size := some .varlen }, [plain "field_0" .string], never⟩,
        ⟨"WithPair", { size := some .varlen }, ab, never⟩]
    | .mixed => .struct [plain "a" tU32, plain "b" tU32 { fixed := true }]
    | .allInts => .struct [plain "a" tU32 { fixed := true }, plain "b" (.int .i32) { fixed := true },
        plain "c" (.int .u64) { fixed := true }, plain "d" (.int .i64) { fixed := true },
        plain "e" (.int .u128) { fixed := true }, plain "f" (.int .i128) { fixed := true }]
    | .doc => .struct [plain "values" (.vec tU32) { specialised := true }]
    | .manyVecs => .struct [plain "a" (.vec tU32) { specialised := true },
        plain "b" (.vec (.int .u64)) { specialised := true }, plain "c" (.vec (.int .i32)) { specialised := true },
        plain "d" (.vec (.float .f32)) { specialised := true }]
    | .evolvingV1 => .struct [plain "field_a" tU32]
    | .evolving => .struct [plain "field_a" tU32,
        ⟨"field_b", { start := some 2 }, .int .u16, fun _ _ => .ok (0 : BitVec 16), fun _ _ _ _ => .panic⟩]
    | .evolvingEnumV1 => .enum [⟨"Variant", {}, [plain "field_0" (.int .u8)], never⟩]
    | .evolvingEnum => .enum [
        ⟨"V1", { stop := some 2, convert := some "conv_old" }, [plain "field_0" (.int .u8)],
          fun _ _ _ => .ok ⟨"V2", [⟨.int .u64, (0 : BitVec 64)⟩]⟩⟩,
        ⟨"V2", { start := some 2 }, [plain "field_0" (.int .u64)], never⟩]

/-- An allocator that grants everything; no test needs the order of keys. -/
def impls : Impls program.kind := ⟨fun _ _ => true, fun _ _ _ _ => .eq, fun _ _ _ _ => true⟩

/-- The impls of a test type, with default features or with `fixed-width-encoding`; no value nests deeper than 3. -/
abbrev C (i : T) : Codec (Values program.kind 3 i) := program.codec .default impls 3 i
abbrev CF (i : T) : Codec (Values program.kind 3 i) := program.codec ⟨true, true⟩ impls 3 i

/-- Field values. -/
abbrev V := DynAt kinds 2
def u32v (v : BitVec 32) : V := ⟨tU32, v⟩
/-- A struct value and an enum value. -/
def S (i : T) (l : List V) (h : kinds i = .struct := by rfl) : Values program.kind 3 i :=
  cast (by unfold Values; exact (congrArg (fun k => Kind.values k V) h).symm) l
def E (i : T) (v : String) (l : List V) (h : kinds i = .enum := by rfl) : Values program.kind 3 i :=
  cast (by unfold Values; exact (congrArg (fun k => Kind.values k V) h).symm) (⟨v, l⟩ : EnumVal V)

/-- `assert_eq!(from_slice::<i>(&bytes)?, v)`. -/
def Gives (c : Codec α) (b : Res Bytes) (v : α) : Bool :=
  match b with
  | .ok b =>
    match c.dec b with
    | .ok (w, rest) => rest.isEmpty && decide (c.enc w = c.enc v) && (match c.enc v with | .ok _ => true | _ => false)
    | _ => false
  | _ => false

/-! ## `/repo/tests/migration.rs` -/

/-- `legacy_to_optimised_decoder_produces_same_value`, `optimised_encode_then_decode_matches_legacy_value`. -/
example : Gives (C .legacyAndOptimised) ((C .onlyRev1).enc (S .onlyRev1 [u32v 100, u32v 200]))
      (S .legacyAndOptimised [u32v 100, u32v 200]) ∧
    Gives (C .legacyAndOptimised) ((C .legacyAndOptimised).enc (S .legacyAndOptimised [u32v 100, u32v 200]))
      (S .legacyAndOptimised [u32v 100, u32v 200]) := by decide +kernel

/-- `current_encode_always_uses_latest_revision`, `optimised_from_day_one_round_trips`. -/
example : (C .legacyAndOptimised).enc (S .legacyAndOptimised [u32v 1, u32v 2]) = .ok [2, 2, 0, 0, 0, 1, 2] ∧
    Again (C .optimisedFromDayOne) (S .optimisedFromDayOne [u32v 999, u32v 1000]) 11 := by decide +kernel

/-- `three_revision_history_decodes_each_arm`. -/
example : Gives (C .threeRevisions) ((C .onlyRev1).enc (S .onlyRev1 [u32v 7, u32v 8]))
      (S .threeRevisions [u32v 7, u32v 8]) ∧
    Gives (C .threeRevisions) ((C .shadow2).enc (S .shadow2 [u32v 9, u32v 10]))
      (S .threeRevisions [u32v 9, u32v 10]) ∧
    (C .threeRevisions).enc (S .threeRevisions [u32v 11, u32v 12]) = .ok [3, 2, 0, 0, 0, 11, 12] ∧
    Again (C .threeRevisions) (S .threeRevisions [u32v 11, u32v 12]) 7 := by decide +kernel

/-- `field_lifecycle_crosses_encoding_boundary`. -/
example : Gives (C .growsAcrossBoundary) ((C .onlyA).enc (S .onlyA [u32v 50]))
      (S .growsAcrossBoundary [u32v 50, u32v 42]) ∧
    Again (C .growsAcrossBoundary) (S .growsAcrossBoundary [u32v 60, u32v 70]) 7 := by decide +kernel

/-- The byte pins: `pin_legacy_rev1_decodes_into_legacy_and_optimised_type`, `pin_optimised_rev1_struct_layout`,
`pin_optimised_indexed_struct_layout`, `pin_optimised_varlen_enum_variant_layout`. -/
example : Gives (C .legacyAndOptimised) (.ok [1, 1, 2]) (S .legacyAndOptimised [u32v 1, u32v 2]) ∧
    (C .onlyRev1).enc (S .onlyRev1 [u32v 1, u32v 2]) = .ok [1, 1, 2] ∧
    (C .optimisedFromDayOne).enc (S .optimisedFromDayOne [u32v 7, u32v 11]) = .ok [1, 2, 0, 0, 0, 7, 11] ∧
    Again (C .optimisedFromDayOne) (S .optimisedFromDayOne [u32v 7, u32v 11]) 7 ∧
    (C .pinIndexedStruct).enc (S .pinIndexedStruct [u32v 7, u32v 11, u32v 19]) =
      .ok [1, 15, 0, 0, 0, 12, 0, 0, 0, 13, 0, 0, 0, 14, 0, 0, 0, 7, 11, 19] ∧
    Again (C .pinIndexedStruct) (S .pinIndexedStruct [u32v 7, u32v 11, u32v 19]) 20 ∧
    (C .pinOptimisedEnum).enc (E .pinOptimisedEnum "Greeting" [⟨.string, "hi"⟩]) =
      .ok [1, 64, 3, 0, 0, 0, 2, 104, 105] ∧
    Again (C .pinOptimisedEnum) (E .pinOptimisedEnum "Greeting" [⟨.string, "hi"⟩]) 9 := by decide +kernel

/-- Nested values of the tests. -/
def inner (i : T) (l : List (DynAt kinds 1)) (h : kinds i = .struct := by rfl) : Values kinds 2 i :=
  cast (by unfold Values; exact (congrArg (fun k => Kind.values k (DynAt kinds 1)) h).symm) l

/-- `legacy_outer_with_optimised_inner_round_trips`, `optimised_outer_with_legacy_inner_round_trips`,
`nested_optimised_both_levels_round_trips`. -/
example : Again (C .outerLegacy) (S .outerLegacy [u32v 0xAA,
      ⟨.ext .innerOptimised, inner .innerOptimised [⟨tU32, (1 : BitVec 32)⟩, ⟨tU32, (2 : BitVec 32)⟩]⟩]) 9 ∧
    Again (C .outerOptimised) (S .outerOptimised [u32v 0xBB,
      ⟨.ext .innerLegacy, inner .innerLegacy [⟨tU32, (3 : BitVec 32)⟩, ⟨tU32, (4 : BitVec 32)⟩]⟩]) 9 ∧
    Again (C .outer2) (S .outer2 [u32v 7, ⟨.ext .inner2, inner .inner2 [⟨tU32, (42 : BitVec 32)⟩]⟩]) 12 := by
  decide +kernel

/-- `[1, 2, 3, 4, 5, 6, 7, 8]`. -/
def eight : V := ⟨.array 8 (.int .u8), ([1, 2, 3, 4, 5, 6, 7, 8] : List (BitVec 8))⟩

/-- `variant_removed_across_optimised_boundary_routes_through_convert_fn`. -/
example : Gives (C .variantLifecycle) ((C .shadowEnum).enc (E .shadowEnum "Old" [eight]))
    (E .variantLifecycle "New" [eight]) := by decide +kernel

/-! ## `/repo/tests/test.rs` -/

/-- `TestEnum::Zero`, `TestUnit {}`, `TestTuple1(…)`. -/
def zero : V := ⟨.ext .testEnum, (⟨"Zero", []⟩ : EnumVal (DynAt kinds 1))⟩
def unitv : V := ⟨.ext .testUnit, ([] : List (DynAt kinds 1))⟩
def tuplev : V := ⟨.ext .testTuple1, ([⟨.vec (.int .i64), ([1039481, 30459830] : List (BitVec 64))⟩] : List (DynAt kinds 1))⟩
def usize1 : V := ⟨.int .usize, (57918374 : BitVec 64)⟩
def isize1 : V := ⟨.int .isize, (18540294 : BitVec 64)⟩
def u16v : V := ⟨.int .u16, (19357 : BitVec 16)⟩
def u64v : V := ⟨.int .u64, (194712409848 : BitVec 64)⟩
def i8v : V := ⟨.int .i8, (123 : BitVec 8)⟩
def i32v : V := ⟨.int .i32, (5283715 : BitVec 32)⟩
/-- The bits of `6739457.293487f32` and `394857394.987219847f64` do not matter. -/
def f32v : V := ⟨.float .f32, (0x4acdab02 : BitVec 32)⟩
def f64v : V := ⟨.float .f64, (0x41b788f972fcba6c : BitVec 64)⟩
def testv : V := ⟨.string, "this is a test"⟩
def wasv : V := ⟨.wrap .string, "this was a test"⟩
def some17 : V := ⟨.option (.int .u8), some (17 : BitVec 8)⟩
def charx : V := ⟨.char, 'x'⟩

def version1 := S .tester1 [usize1, u16v, u64v, i8v, i32v, f32v, f64v, charx, testv, zero, some17, wasv]
def version2 := S .tester2 [usize1, isize1, u16v, u64v, i8v, ⟨.int .i16, (32753 : BitVec 16)⟩, i32v,
  ⟨.int .i64, (194738194731 : BitVec 64)⟩, f32v, f64v, charx, ⟨.bool, true⟩, testv, zero, some17, wasv]
def version3 := S .tester3 [usize1, isize1, u16v, i8v, i32v, f32v, f64v, charx, ⟨.bool, true⟩, testv, zero, some17,
  ⟨.vec .char, ['a', 'b', 'c']⟩, unitv, tuplev, wasv, ⟨.wrap tU32, (19348719 : BitVec 32)⟩]
def version4 := S .tester4 [usize1, u16v, i8v, i32v, f32v, f64v, charx, ⟨.bool, true⟩, testv, zero, some17, unitv,
  tuplev, wasv, ⟨.wrap tU32, (19348719 : BitVec 32)⟩]

/-- `test_enum`: each version reads itself and `Tester4` reads all four. -/
example : Gives (C .tester1) ((C .tester1).enc version1) version1 ∧ Gives (C .tester2) ((C .tester2).enc version2) version2 ∧
    Gives (C .tester3) ((C .tester3).enc version3) version3 ∧ Gives (C .tester4) ((C .tester4).enc version4) version4 ∧
    Gives (C .tester4) ((C .tester1).enc version1) version4 ∧ Gives (C .tester4) ((C .tester2).enc version2) version4 ∧
    Gives (C .tester4) ((C .tester3).enc version3) version4 := by decide +kernel

example : Gives (CF .tester4) ((CF .tester1).enc version1) version4 ∧
    Gives (CF .tester4) ((CF .tester2).enc version2) version4 ∧
    Gives (CF .tester4) ((CF .tester3).enc version3) version4 := by decide +kernel

/-- `test_serialize_disabled`, `test_deserialize_disabled`. -/
example : Again (C .oneUsize) (S .oneUsize [usize1]) 6 ∧ Again (CF .oneUsize) (S .oneUsize [usize1]) 10 := by
  decide +kernel

/-! ## `/repo/tests/macro_optimised.rs` -/

/-- `optimised_struct_round_trips`, `optimised_struct_preserves_field_values_across_a_few_sizes`. -/
example : Again (C .optimisedFromDayOne) (S .optimisedFromDayOne [u32v 0xDEADBEEF, u32v 0xCAFEBABE]) 15 ∧
    Again (C .optimisedFromDayOne) (S .optimisedFromDayOne [u32v 0, u32v 0]) 7 ∧
    Again (C .optimisedFromDayOne) (S .optimisedFromDayOne [u32v (BitVec.allOnes 32), u32v 0]) 11 ∧
    Again (C .optimisedFromDayOne) (S .optimisedFromDayOne [u32v 12345, u32v 67890]) 13 := by decide +kernel

/-- `optimised_struct_wire_starts_with_revision_then_length`, `indexed_optimised_struct_round_trips`,
`indexed_optimised_struct_has_offset_table_prologue`, also with `fixed-width-encoding`. -/
example : (CF .optimisedFromDayOne).enc (S .optimisedFromDayOne [u32v 1, u32v 2]) =
      .ok ([1, 0] ++ le 8 ++ le 1 ++ le 2) ∧
    Again (C .pinIndexedStruct) (S .pinIndexedStruct [u32v 10, u32v 20, u32v 30]) 20 ∧
    (CF .pinIndexedStruct).enc (S .pinIndexedStruct [u32v 0, u32v 0, u32v 0]) =
      .ok ([1, 0] ++ le 24 ++ le 12 ++ le 16 ++ le 20 ++ le 0 ++ le 0 ++ le 0) := by decide +kernel

/-- `optimised_skip_advances_full_record`, `optimised_enum_skip_advances_past_record`. -/
example : (C .optimisedFromDayOne).skip ([1, 2, 0, 0, 0, 1, 2] ++ [252, 0xEF, 0xBE, 0xAD, 0xDE]) =
      .ok ((), [252, 0xEF, 0xBE, 0xAD, 0xDE]) ∧
    (C .optimisedEnum).enc (E .optimisedEnum "WithString" [⟨.string, "payload"⟩]) =
      .ok ([1, 66] ++ le 8 ++ [7] ++ raw "payload") ∧
    (C .optimisedEnum).skip ([1, 66] ++ le 8 ++ [7] ++ raw "payload" ++ [252, 0xEF, 0xBE, 0xAD, 0xDE]) =
      .ok ((), [252, 0xEF, 0xBE, 0xAD, 0xDE]) := by decide +kernel

/-- `optimised_enum_round_trips_all_size_classes`, `optimised_enum_inline_variant_is_just_header_plus_tag`,
`optimised_enum_fixed_variant_has_no_length_prefix`, `optimised_enum_varlen_variant_has_u32_le_length`. -/
example : Again (C .optimisedEnum) (E .optimisedEnum "Unit" []) 2 ∧ Again (CF .optimisedEnum) (E .optimisedEnum "Unit" []) 3 ∧
    Again (C .optimisedEnum) (E .optimisedEnum "WithBytes" [eight]) 10 ∧
    Again (CF .optimisedEnum) (E .optimisedEnum "WithBytes" [eight]) 11 ∧
    Again (C .optimisedEnum) (E .optimisedEnum "WithString" [⟨.string, "hello, optimised world"⟩]) 29 ∧
    Again (C .optimisedEnum) (E .optimisedEnum "WithPair" [u32v 1, u32v 2]) 8 ∧
    Again (C .optimisedEnum) (E .optimisedEnum "WithString" [⟨.string, String.ofList (List.replicate 100 'x')⟩]) 107 := by
  decide +kernel

/-! ## `/repo/tests/per_field_fixed.rs`, `per_field_specialised.rs` -/

/-- `fixed_attr_forces_four_byte_u32_on_wire`, `fixed_attr_idempotent_under_fixed_width_encoding_feature`. -/
example : (C .mixed).enc (S .mixed [u32v 1, u32v 42]) = .ok ([1, 1] ++ le 42) ∧
    (CF .mixed).enc (S .mixed [u32v 1, u32v 42]) = .ok ([1, 0] ++ le 1 ++ le 42) ∧
    Again (C .mixed) (S .mixed [u32v 1, u32v 42]) 6 ∧ Again (CF .mixed) (S .mixed [u32v 1, u32v 42]) 10 ∧
    Again (C .mixed) (S .mixed [u32v 0x11223344, u32v 0x55667788]) 10 := by decide +kernel

/-- `fixed_attr_works_on_all_supported_integers`. -/
example : Again (C .allInts) (S .allInts [u32v 1, ⟨.int .i32, (-2 : BitVec 32)⟩, ⟨.int .u64, (3 : BitVec 64)⟩,
    ⟨.int .i64, (-4 : BitVec 64)⟩, ⟨.int .u128, (5 : BitVec 128)⟩, ⟨.int .i128, (-6 : BitVec 128)⟩]) 57 := by decide +kernel

/-- `specialised_attr_round_trips_vec_u32`, `specialised_attr_wire_shape_is_length_plus_bulk_le_bytes`. -/
example : Again (C .doc)
      (S .doc [⟨.vec tU32, ([1, 2, 3, 4, 5, 100, 1000, 1000000, BitVec.allOnes 32] : List (BitVec 32))⟩]) 38 ∧
    (C .doc).enc (S .doc [⟨.vec tU32, ([0x11223344, 0x55667788, 0x99AABBCC] : List (BitVec 32))⟩]) =
      .ok [1, 3, 0x44, 0x33, 0x22, 0x11, 0x88, 0x77, 0x66, 0x55, 0xCC, 0xBB, 0xAA, 0x99] := by decide +kernel

/-- `specialised_attr_works_for_multiple_primitive_vecs`. -/
example : Again (C .manyVecs) (S .manyVecs [⟨.vec tU32, ([1, 2, 3] : List (BitVec 32))⟩,
    ⟨.vec (.int .u64), ([100, 200, 300] : List (BitVec 64))⟩, ⟨.vec (.int .i32), ([-1, -2, -3] : List (BitVec 32))⟩,
    ⟨.vec (.float .f32), ([0x3f800000, 0x40200000, 0x40600000] : List (BitVec 32))⟩]) 65 := by decide +kernel

/-! ## `/repo/tests/skip.rs` -/

/-- `skip_slice_matches_full_serialized_encoding`, `skip_current_accepts_prior_revision_wire`. -/
example : Again (C .evolving) (S .evolving [u32v 91, ⟨.int .u16, (7 : BitVec 16)⟩]) 3 ∧
    (C .evolvingV1).enc (S .evolvingV1 [u32v 42]) = .ok [1, 42] ∧ (C .evolving).skip [1, 42] = .ok ((), []) ∧
    Gives (C .evolving) (.ok [1, 42]) (S .evolving [u32v 42, ⟨.int .u16, (0 : BitVec 16)⟩]) := by decide +kernel

/-- `skip_enum_cross_revision_wire`. -/
example : (C .evolvingEnumV1).enc (E .evolvingEnumV1 "Variant" [⟨.int .u8, (19 : BitVec 8)⟩]) = .ok [1, 0, 19] ∧
    (C .evolvingEnum).skip [1, 0, 19] = .ok ((), []) ∧
    Gives (C .evolvingEnum) (.ok [1, 0, 19]) (E .evolvingEnum "V2" [⟨.int .u64, (0 : BitVec 64)⟩]) := by decide +kernel

/-- `utf8_fast_skip_allows_invalid_payload_skip_check_rejects`, `option_bad_tag_matches_between_skip_traits`,
`eof_on_empty_reads_for_primitive_skips_deserialize_alignment`. -/
example : Fails ((on .string).dec [3, 0xff, 0xff, 0xff]) ∧ (on .string).skip [3, 0xff, 0xff, 0xff] = .ok ((), []) ∧
    Fails ((on .string).check [3, 0xff, 0xff, 0xff]) ∧
    (on (.option (.int .u32))).skip [2] = .err .deserialize ∧ (on (.option (.int .u32))).check [2] = .err .deserialize ∧
    Fails ((on (.int .u64)).skip []) ∧ Fails ((on (.int .u64)).dec []) := by decide +kernel

end Revision.Suite
