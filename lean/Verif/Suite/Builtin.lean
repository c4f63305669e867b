import Verif.Model.Ty
import Verif.Spec.Demo

/-!
# The crate's own tests: built-in types

The code cannot be run here, so nothing but reading ties the model to it.  The crate's unit tests were run against
the code by its authors: this directory repeats the assertions of those that exercise modelled functions, on the
model.  They are tests of the model, not proofs of properties: no claim of `MANIFEST.json` rests on them.

`assert_eq!` on values compares what the two values are written as, which tells values apart
(`C07_injective_prefix_free`).
-/

namespace Revision.Suite

/-- `let mem = to_vec(&v)?; assert_eq!(mem.len(), len); assert_eq!(from_slice(&mem)?, v)`, and
`skip_slice(&mem)? == mem.len()`. -/
def Again (c : Codec α) (v : α) (len : Nat) : Bool :=
  match c.enc v with
  | .ok b =>
    b.length == len &&
    (match c.dec b with
      | .ok (w, rest) => rest.isEmpty && decide (c.enc w = .ok b)
      | _ => false) &&
    decide (c.skip b = .ok ((), [])) && decide (c.skipS b = .ok ((), []))
  | _ => false

/-- `assert_eq!(to_vec(&v)?.len(), len)` alone: sorting the entries of an ordered collection does not reduce in the
kernel, that they are read back is `C05_round_trip`. -/
def Size (c : Codec α) (v : α) (len : Nat) : Bool :=
  match c.enc v with
  | .ok b => b.length == len
  | _ => false

/-- `assert!(….is_err())`. -/
def Fails (r : Res α) : Bool :=
  match r with
  | .err _ => true
  | _ => false

/-- The impls of `t`, with default features or with `fixed-width-encoding`. -/
abbrev on (t : Ty Empty) : Codec (t.denote demoEnv.X) := t.codec .default demoEnv
abbrev onFixed (t : Ty Empty) : Codec (t.denote demoEnv.X) := t.codec ⟨true, true⟩ demoEnv

/-! ## `/repo/src/implementations/primitives.rs` -/

/-- `test_zigzag`, `:805-812`. -/
example : zigzag (0 : BitVec 64) = 0 ∧ zigzag (1 : BitVec 64) = 2 ∧ zigzag (-1 : BitVec 64) = 1 ∧
    zigzag (BitVec.intMin 64) = BitVec.allOnes 64 ∧ zigzag (BitVec.intMax 64) = BitVec.allOnes 64 - 1 := by decide +kernel

/-- `test_gazgiz`. -/
example : gazgiz (0 : BitVec 64) = 0 ∧ gazgiz (1 : BitVec 64) = -1 ∧ gazgiz (2 : BitVec 64) = 1 ∧
    gazgiz (BitVec.allOnes 64) = BitVec.intMin 64 ∧ gazgiz (BitVec.allOnes 64 - 1) = BitVec.intMax 64 := by decide +kernel

/-- `test_bool`, `test_isize`, `test_i8`, …, `test_u128`. -/
example : Again (on .bool) true 1 ∧
    Again (on (.int .isize)) (BitVec.intMin 64) 9 ∧ Again (onFixed (.int .isize)) (BitVec.intMin 64) 8 ∧
    Again (on (.int .i8)) (BitVec.intMin 8) 1 ∧ Again (onFixed (.int .i8)) (BitVec.intMin 8) 1 ∧
    Again (on (.int .i16)) (BitVec.intMin 16) 3 ∧ Again (onFixed (.int .i16)) (BitVec.intMin 16) 2 ∧
    Again (on (.int .i32)) (BitVec.intMin 32) 5 ∧ Again (onFixed (.int .i32)) (BitVec.intMin 32) 4 ∧
    Again (on (.int .i64)) (BitVec.intMin 64) 9 ∧ Again (onFixed (.int .i64)) (BitVec.intMin 64) 8 ∧
    Again (on (.int .i128)) (BitVec.intMin 128) 17 ∧ Again (onFixed (.int .i128)) (BitVec.intMin 128) 16 := by
  decide +kernel

example : Again (on (.int .usize)) (BitVec.allOnes 64) 9 ∧ Again (onFixed (.int .usize)) (BitVec.allOnes 64) 8 ∧
    Again (on (.int .u8)) (BitVec.allOnes 8) 1 ∧ Again (onFixed (.int .u8)) (BitVec.allOnes 8) 1 ∧
    Again (on (.int .u16)) (BitVec.allOnes 16) 3 ∧ Again (onFixed (.int .u16)) (BitVec.allOnes 16) 2 ∧
    Again (on (.int .u32)) (BitVec.allOnes 32) 5 ∧ Again (onFixed (.int .u32)) (BitVec.allOnes 32) 4 ∧
    Again (on (.int .u64)) (BitVec.allOnes 64) 9 ∧ Again (onFixed (.int .u64)) (BitVec.allOnes 64) 8 ∧
    Again (on (.int .u128)) (BitVec.allOnes 128) 17 ∧ Again (onFixed (.int .u128)) (BitVec.allOnes 128) 16 := by
  decide +kernel

/-- `test_f32`, `test_f64`, `test_char`, `skip_u32_consumes_serialised_length`. -/
example : Again (on (.float .f32)) (0x7f7fffff : BitVec 32) 4 ∧ Again (on (.float .f64)) (0x7fefffffffffffff : BitVec 64) 8 ∧
    Again (on .char) (Char.ofNat 0x10FFFF) 4 ∧ Again (on (.int .u32)) (0x12345678 : BitVec 32) 5 := by decide +kernel

/-! ## `/repo/src/implementations/string.rs`, `vecs.rs`, `option.rs`, `result.rs`, `tuple.rs`, `duration.rs` -/

/-- `test_string`, `test_char`, and the two-byte length prefix of `str_and_string_serialize_identically`. -/
example : Again (on .string) "this is a test" 15 ∧ Again (onFixed .string) "this is a test" 22 ∧
    Again (on .char) '𐃌' 4 ∧ Again (on .string) "" 1 ∧ Again (on .string) "unicode: 🚀🔥✨" 21 ∧
    Again (on .string) "with\x00embedded\x00nuls" 19 ∧ Again (on .string) (String.ofList (List.replicate 300 'x')) 303 := by
  decide +kernel

/-- `test_vec`, `test_vec_bool`, `test_vec_string`, `test_vec_empty`, `test_vec_large`, `test_vec_edge_cases`. -/
example : Again (on (.vec .string)) ["this", "is", "a", "test"] 16 ∧
    Again (onFixed (.vec .string)) ["this", "is", "a", "test"] 51 ∧
    Again (on (.vec .bool)) [true, false, true, true, false] 2 ∧
    Again (on (.vec .string)) ["hello", "world", "", "longer string with spaces and symbols!@#$%", "unicode: 🚀🔥✨"] 78 ∧
    Again (on (.vec .bool)) [] 1 ∧ Again (on (.vec .string)) [] 1 ∧
    Again (on (.vec .bool)) ((List.range 100).map (· % 2 == 0)) 14 ∧
    Again (on (.vec .bool)) (List.replicate 50 true) 8 ∧ Again (on (.vec .bool)) (List.replicate 50 false) 8 := by
  decide +kernel

/-- `test_option_none`, `test_option_some`. -/
example : Again (on (.option .string)) none 1 ∧ Again (onFixed (.option .string)) none 1 ∧
    Again (on (.option .string)) (some "this is a test") 16 ∧
    Again (onFixed (.option .string)) (some "this is a test") 23 := by decide +kernel

/-- `test_result_ok`, `test_result_err`. -/
example : Again (on (.result .bool .string)) (.ok true) 2 ∧ Again (onFixed (.result .bool .string)) (.ok true) 5 ∧
    Again (on (.result .bool .string)) (.error "some error") 12 ∧
    Again (onFixed (.result .bool .string)) (.error "some error") 22 := by decide +kernel

/-- `test_tuple_2` … `test_tuple_5`; the bits of `1419247293847192847.13…` do not matter. -/
example : Again (on (.pair .string .bool)) ("test", true) 6 ∧ Again (onFixed (.pair .string .bool)) ("test", true) 13 ∧
    Again (on (.pair .string (.pair .bool (.float .f64)))) ("test", true, (0x43b3b227d4b1b2b4 : BitVec 64)) 14 ∧
    Again (onFixed (.pair .string (.pair .bool (.float .f64)))) ("test", true, (0x43b3b227d4b1b2b4 : BitVec 64)) 21 ∧
    Again (on (.pair .string (.pair .bool (.pair (.float .f64) (.option .char)))))
      ("test", true, (0x43b3b227d4b1b2b4 : BitVec 64), some 't') 16 ∧
    Again (onFixed (.pair .string (.pair .bool (.pair (.float .f64) (.option .char)))))
      ("test", true, (0x43b3b227d4b1b2b4 : BitVec 64), some 't') 23 := by decide +kernel

example : Again (on (.pair .string (.pair .bool (.pair (.float .f64) (.pair (.option .char) (.vec (.int .u8)))))))
      ("test", true, (0x43b3b227d4b1b2b4 : BitVec 64), some 't', [4, 19, 133]) 20 ∧
    Again (onFixed (.pair .string (.pair .bool (.pair (.float .f64) (.pair (.option .char) (.vec (.int .u8)))))))
      ("test", true, (0x43b3b227d4b1b2b4 : BitVec 64), some 't', [4, 19, 133]) 34 := by decide +kernel

/-- `duration.rs`, `test_string`, and the values of `bincode_compat`. -/
example : Again (on .duration) (604800, 0) 6 ∧ Again (onFixed .duration) (604800, 0) 12 ∧ Again (on .duration) (0, 0) 2 ∧
    Again (on .duration) (BitVec.allOnes 64, 999999999) 14 ∧ Again (on .duration) (BitVec.allOnes 64, 0) 10 := by
  decide +kernel

/-! ## `/repo/src/implementations/system_time.rs`, `range.rs` -/

/-- `test_system_time_epoch_bytes`, `test_system_time_future`, `test_system_time_serialized_bytes`. -/
example : (on .systemTime).enc (0, 0) = .ok [0, 0] ∧
    Again (on .systemTime) (0xffffffff, 999999999) 10 ∧
    (on .systemTime).enc (12345, 678) = .ok (encodeU64 12345 ++ encodeU64 678) := by decide +kernel

/-- `test_system_time_truncated_data`, `test_system_time_empty_reader`, `test_system_time_partial_secs_truncated`. -/
example : Fails ((on .systemTime).dec [251, 57]) ∧ Fails ((on .systemTime).dec []) ∧
    Fails ((on .systemTime).dec [251, 57, 48, 251, 166]) ∧
    (on .systemTime).enc (12345, 678) = .ok [251, 57, 48, 251, 166, 2] := by decide +kernel

/-- `test_range_u32`, `test_range_string`, `test_range_inverted`, `test_range_i32`, `test_range_max_u64`,
`test_range_nested_option_with_none`, `test_range_serialized_bytes`. -/
example : Again (on (.pair (.int .u32) (.int .u32))) (10, 100) 2 ∧ Again (on (.pair .string .string)) ("aaa", "zzz") 8 ∧
    Again (on (.pair (.int .u32) (.int .u32))) (100, 10) 2 ∧ Again (on (.pair (.int .i32) (.int .i32))) (-100, 100) 2 ∧
    Again (on (.pair (.int .u64) (.int .u64))) (0, BitVec.allOnes 64) 10 ∧
    Again (on (.pair (.option (.int .u32)) (.option (.int .u32)))) (none, some 100) 3 ∧
    (on (.pair (.int .u32) (.int .u32))).enc (10, 100) = .ok [10, 100] := by decide +kernel

/-- `test_range_truncated_data`, `test_range_empty_reader`. -/
example : Fails ((on (.pair (.int .u32) (.int .u32))).dec [10]) ∧ Fails ((on (.pair (.int .u32) (.int .u32))).dec []) := by
  decide +kernel

/-! ## `/repo/src/implementations/collections.rs`, `bound.rs`, `bytes.rs`, `uuid.rs`, `path.rs`, the wrappers -/

/-- The bits of the floats of `test_hashmap` do not matter. -/
def floats : List (String × List (BitVec 64)) := [("some", [1, 2, 3]), ("test", [4, 5, 6])]

/-- `test_hashmap`, `test_btreemap`, `test_hashset`, `test_btreeset`, `test_binheap`. -/
example : Again (on (.hashMap .string (.vec (.float .f64)))) floats 61 ∧
    Again (onFixed (.hashMap .string (.vec (.float .f64)))) floats 96 ∧
    Size (on (.btreeMap .string (.vec (.float .f64)))) floats 61 ∧
    Size (onFixed (.btreeMap .string (.vec (.float .f64)))) floats 96 ∧
    Again (on (.hashSet .string)) ["some", "test"] 11 ∧ Again (onFixed (.hashSet .string)) ["some", "test"] 32 ∧
    Size (on (.btreeSet .string)) ["some", "test"] 11 ∧ Size (onFixed (.btreeSet .string)) ["some", "test"] 32 ∧
    Size (on (.binaryHeap .string)) ["some", "test"] 11 ∧ Size (onFixed (.binaryHeap .string)) ["some", "test"] 32 := by
  decide +kernel

/-- `test_hashset_string_empty` …, `test_btreemap_string_specialization`, `test_btreeset_string_specialization`. -/
example : Again (on (.hashSet .string)) [] 1 ∧ Size (on (.btreeSet .string)) [] 1 ∧
    Again (on (.hashMap .string (.int .i32))) [] 1 ∧ Size (on (.btreeMap .string (.int .i32))) [] 1 ∧
    Size (on (.btreeMap .string (.int .i32))) [("", 0), ("key1", 42), ("key2", -100),
      ("longer_key_with_underscores", 999), ("unicode_🚀🔥✨", -42)] 67 ∧
    Size (on (.btreeSet .string)) ["", "item1", "item2", "longer_item_with_underscores", "unicode_🚀🔥✨"] 63 := by
  decide +kernel

/-- `test_bound_unbounded`, `test_bound_excluded`, `test_bound_included`. -/
example : Again (on (.bound .string)) .unbounded 1 ∧ Again (onFixed (.bound .string)) .unbounded 4 ∧
    Again (on (.bound .string)) (.excluded "this is a test") 16 ∧
    Again (onFixed (.bound .string)) (.excluded "this is a test") 26 ∧
    Again (on (.bound .string)) (.included "this is a test") 16 ∧
    Again (onFixed (.bound .string)) (.included "this is a test") 26 := by decide +kernel

/-- `test_box`, `test_box_str`, `test_wrapping`, `test_reverse`, `test_arc`, `cow_borrow`, `test_pathbuf`. -/
example : Again (on (.wrap .string)) "this is a test" 15 ∧ Again (onFixed (.wrap .string)) "this is a test" 22 ∧
    Again (on (.wrap .string)) "hello world" 12 ∧ Again (onFixed (.wrap .string)) "hello world" 19 ∧
    Again (on (.wrap (.int .u32))) (BitVec.allOnes 32) 5 ∧ Again (onFixed (.wrap (.int .u32))) (BitVec.allOnes 32) 4 ∧
    Again (on (.wrap (.int .u8))) 20 1 ∧
    Again (on .path) "/test/path/to/file.txt".toByteArray.data.toList 23 ∧
    Again (onFixed .path) "/test/path/to/file.txt".toByteArray.data.toList 30 := by decide +kernel

/-- `bytes.rs`, `uuid.rs`: `test_uuid`, `test_vec_uuid`; `notnan.rs`. -/
example : Again (on .bytes) [42] 2 ∧ Again (on .bytes) [0, 1, 127, 128, 255] 6 ∧
    Again (on .bytes) ((List.range 256).map UInt8.ofNat) 259 ∧
    Again (on .uuid) (0x100f0e0d0c0b0a090807060504030201 : BitVec 128) 16 ∧
    Again (on (.vec .uuid)) [0x100f0e0d0c0b0a090807060504030201, 0x201f1e1d1c1b1a191817161514131211, 3] 49 ∧
    Again (onFixed (.vec .uuid)) [0x100f0e0d0c0b0a090807060504030201, 0x201f1e1d1c1b1a191817161514131211, 3] 56 ∧
    Again (on (.notNan .f32)) (0x7f7fffff : BitVec 32) 4 := by decide +kernel

/-! ## `/repo/src/implementations/specialised.rs` -/

/-- `test_vec_i8` … `test_vec_f64`, `test_vec_empty`. -/
example : Again (on (.vec (.int .i8))) [-128, -1, 0, 1, 127] 6 ∧ Again (on (.vec (.int .u8))) [0, 1, 127, 255] 5 ∧
    Again (on (.vec (.int .i16))) [-32768, -1000, 0, 1000, 32767] 11 ∧
    Again (on (.vec (.int .u16))) [0, 1000, 32767, 65535] 9 ∧
    Again (on (.vec (.int .i32))) [BitVec.intMin 32, -100000, 0, 100000, BitVec.intMax 32] 21 ∧
    Again (on (.vec (.int .u32))) [0, 100000, 2147483647, 4294967295] 17 ∧
    Again (on (.vec (.int .i64))) [BitVec.intMin 64, -1000000000, 0, 1000000000, BitVec.intMax 64] 41 ∧
    Again (on (.vec (.int .u64))) [0, 1000000000, 9223372036854775807, 18446744073709551615] 33 ∧
    Again (on (.vec (.int .i128))) [BitVec.intMin 128, -1000000000000000000, 0, BitVec.intMax 128] 65 ∧
    Again (on (.vec (.float .f32))) [0xff7fffff, 0x80000000, 0, 0x7fc00000] 17 ∧
    Again (on (.vec (.float .f64))) [0xfff0000000000000, 0x8000000000000000, 0, 0x7ff8000000000000] 33 ∧
    Again (on (.vec (.int .i8))) [] 1 ∧ Again (on (.vec (.float .f64))) [] 1 := by decide +kernel

end Revision.Suite
