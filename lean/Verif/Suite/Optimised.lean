import Verif.Model.Indexed
import Verif.Model.BytesOrd
import Verif.Model.Reader
import Verif.Suite.Builtin

/-!
# The crate's own tests: tags, envelopes, indexed payloads

See `Verif/Suite/Builtin.lean` for what this directory is.
-/

namespace Revision.Suite

/-- The bytes of a literal `b"…"`. -/
def raw (s : String) : Bytes := s.toByteArray.data.toList

/-- `v.to_le_bytes()` of a `u32`. -/
def le (v : Nat) : Bytes := leBytes 4 v

/-! ## `/repo/src/optimised/tag.rs` -/

/-- `tag_round_trip_inline`, `tag_round_trip_fixed_max_variant`, `tag_round_trip_varlen`,
`tag_reserved_size_class_errors`, `tag_extended_bit_detected`. -/
example : Tag.variantId (Tag.new 7 .inline) = 7 ∧ Tag.sizeClass (Tag.new 7 .inline) = .ok .inline ∧
    Tag.isExtended (Tag.new 7 .inline) = false ∧
    Tag.variantId (Tag.new 31 .fixed) = 31 ∧ Tag.sizeClass (Tag.new 31 .fixed) = .ok .fixed ∧
    Tag.variantId (Tag.new 0 .varlen) = 0 ∧ Tag.sizeClass (Tag.new 0 .varlen) = .ok .varlen ∧
    Tag.sizeClass 0b01100000 = .err (.invalidTag 0b01100000) ∧
    Tag.isExtended (0b10000000 ||| Tag.new 1 .inline) = true := by decide +kernel

/-! ## `/repo/src/optimised/envelope.rs` -/

/-- `inline_round_trip`, `read_optimised_tag_errors_on_reserved_size_class`. -/
example : readOptimisedTag (encodeInline 3) = .ok ((Tag.new 3 .inline, .inline), []) ∧ (encodeInline 3).length = 1 ∧
    readOptimisedTag [0b01100000] = .err (.invalidTag 0b01100000) := by decide +kernel

/-- `fixed_round_trip`. -/
example : (do let b ← encodeFixed 7 (.ok (leBytes 8 42)); readOptimisedTag b) =
    .ok ((Tag.new 7 .fixed, .fixed), leBytes 8 42) := by decide +kernel

/-- `varlen_round_trip`, `skip_varlen_advances_full_length`, `skip_varlen_borrowed_matches_skip_varlen`. -/
example : (do let b ← encodeVarlen 12 (.ok (raw "hello world")); readOptimisedTag b) =
      .ok ((Tag.new 12 .varlen, .varlen), le 11 ++ raw "hello world") ∧
    readVarlenSlice (le 11 ++ raw "hello world") = .ok (raw "hello world", []) ∧
    skipVarlen (le 100 ++ List.replicate 100 0xAA) = .ok ((), []) ∧
    skipVarlenBorrowed (le 100 ++ List.replicate 100 0xAA) = .ok ((), []) := by decide +kernel

/-- `read_varlen_slice_overrun_errors`; `/repo/tests/corruption.rs`, `varlen_overrun_returns_io_error`. -/
example : Fails (readVarlenSlice (le 100 ++ [0, 0, 0, 0])) ∧ Fails (readVarlenSlice (le 1000 ++ [0, 0, 0, 0, 0])) := by
  decide +kernel

/-! ## `/repo/src/optimised/validation.rs` -/

/-- `pack_offsets`. -/
def packOffsets (l : List Nat) : Bytes := (l.map le).flatten
/-- `pack_interleaved`. -/
def packInterleaved (l : List (Nat × Nat)) : Bytes := (l.map fun e => le e.1 ++ le e.2).flatten

/-- `struct_prologue_accepts_monotonic_in_range`, `struct_prologue_rejects_out_of_range`,
`struct_prologue_rejects_non_monotonic`. -/
example : validateStructPrologue (packOffsets [0, 4, 12, 20]) 4 4 24 = .ok () ∧
    validateStructPrologue (packOffsets [0, 4, 100]) 3 4 50 = .err (.offsetOutOfRange 100 50) ∧
    validateStructPrologue (packOffsets [0, 4, 4, 8]) 4 4 16 = .err .offsetsNonMonotonic ∧
    validateStructPrologue (packOffsets [8, 4]) 2 4 16 = .err .offsetsNonMonotonic := by decide +kernel

/-- `map_prologue_rejects_mismatched_lengths`, `key_region_ascending_*`. -/
example : validateMapPrologue (packInterleaved [(0, 0), (4, 4)]) 3 8 12 = .err .offsetsNonMonotonic ∧
    validateKeyRegionAscending (raw "abc") (packInterleaved [(0, 0), (1, 0), (2, 0)]) 3 = .ok () ∧
    validateKeyRegionAscending (raw "ba") (packInterleaved [(0, 0), (1, 0)]) 2 = .err .keysNotAscending ∧
    validateKeyRegionAscending (raw "aa") (packInterleaved [(0, 0), (1, 0)]) 2 = .err .keysNotAscending ∧
    validateKeyRegionAscending [] [] 0 = .ok () ∧
    validateKeyRegionAscending (raw "x") (packInterleaved [(0, 0)]) 1 = .ok () := by decide +kernel

/-! ## `/repo/src/optimised/indexed/struct_walk.rs`, `/repo/tests/corruption.rs` -/

/-- Three fields, as `build_struct_payload` lays them out. -/
def abg : Bytes := le 12 ++ le 17 ++ le 21 ++ raw "alpha" ++ raw "beta" ++ raw "gamma"

/-- `opens_and_reads_field_bytes_in_order`, `rejects_out_of_range_field`; the encoder lays them out so too. -/
example : (do let w ← IndexedStructWalker.fromPayload abg 2 3; pure (w.fieldCount, w.revision)) = .ok (3, 2) ∧
    (do let w ← IndexedStructWalker.fromPayload abg 2 3; w.fieldBytes 0) = .ok (raw "alpha") ∧
    (do let w ← IndexedStructWalker.fromPayload abg 2 3; w.fieldBytes 1) = .ok (raw "beta") ∧
    (do let w ← IndexedStructWalker.fromPayload abg 2 3; w.fieldBytes 2) = .ok (raw "gamma") ∧
    Fails (do let w ← IndexedStructWalker.fromPayload abg 2 3; w.fieldBytes 3) ∧
    indexedStructPayload [raw "alpha", raw "beta", raw "gamma"] = abg := by decide +kernel

/-- The error of a constructor. -/
def failure : Res α → Option Err
  | .err e => some e
  | _ => none

/-- `rejects_truncated_prologue`, `rejects_offset_out_of_range`, `rejects_non_monotonic_offsets`,
`rejects_first_offset_before_prologue_end`; and of `corruption.rs`, `indexed_struct_with_*`. -/
example : failure (IndexedStructWalker.fromPayload [0, 0, 0] 1 2) = some .overrun ∧
    (∃ a b, failure (IndexedStructWalker.fromPayload (le 100 ++ le 0) 1 1) = some (.offsetOutOfRange a b)) ∧
    failure (IndexedStructWalker.fromPayload (le 16 ++ le 8 ++ List.replicate 16 0) 1 2) = some .offsetsNonMonotonic ∧
    (∃ a b, failure (IndexedStructWalker.fromPayload (le 2 ++ le 0) 1 1) = some (.offsetOutOfRange a b)) ∧
    (∃ a b, failure (IndexedStructWalker.fromPayload (le 999 ++ le 0) 1 1) = some (.offsetOutOfRange a b)) ∧
    failure (IndexedStructWalker.fromPayload (le 20 ++ le 10 ++ List.replicate 16 0) 1 2) = some .offsetsNonMonotonic ∧
    failure (IndexedStructWalker.fromPayload [0, 0, 0] 1 4) = some .overrun :=
  ⟨by decide +kernel, ⟨100, 8, by decide +kernel⟩, by decide +kernel, ⟨2, 4, by decide +kernel⟩,
    ⟨999, 8, by decide +kernel⟩, by decide +kernel, by decide +kernel⟩

/-! ## `/repo/src/optimised/indexed/seq_walk.rs`, `/repo/tests/corruption.rs` -/

/-- Three elements, as `build_indexed_seq` lays them out. -/
def fbb : Bytes := [1, 3] ++ le 0 ++ le 3 ++ le 9 ++ raw "foobarbarbaz"

/-- `opens_indexed_seq_and_reads_elements`, `opens_legacy_seq_passes_through`. -/
example : (do let w ← IndexedSeqWalker.fromPayload fbb; pure (w.isIndexed, w.len)) = .ok (true, 3) ∧
    (do let w ← IndexedSeqWalker.fromPayload fbb; w.elementBytes 0) = .ok (raw "foo") ∧
    (do let w ← IndexedSeqWalker.fromPayload fbb; w.elementBytes 1) = .ok (raw "barbar") ∧
    (do let w ← IndexedSeqWalker.fromPayload fbb; w.elementBytes 2) = .ok (raw "baz") ∧
    (do let w ← IndexedSeqWalker.fromPayload [0, 2, 1, 2]; pure (w.isIndexed, w.len, w.body)) =
      .ok (false, 2, [1, 2]) ∧
    Fails (do let w ← IndexedSeqWalker.fromPayload [0, 2, 1, 2]; w.elementBytes 0) := by decide +kernel

/-- `rejects_truncated_payload`, `rejects_truncated_offset_table`, `rejects_non_monotonic_offsets`; and of
`corruption.rs`, `indexed_seq_with_oversized_offset_table_errors`, `empty_payload_for_indexed_seq_errors`,
`invalid_varint_tag_byte_errors`. -/
example : failure (IndexedSeqWalker.fromPayload [1, 251, 0]) = some .overrun ∧
    failure (IndexedSeqWalker.fromPayload ([1, 3] ++ le 0)) = some .overrun ∧
    failure (IndexedSeqWalker.fromPayload ([1, 2] ++ le 10 ++ le 0 ++ List.replicate 16 0)) =
      some .offsetsNonMonotonic ∧
    failure (IndexedSeqWalker.fromPayload ([1, 251] ++ leBytes 2 1000)) = some .overrun ∧
    failure (IndexedSeqWalker.fromPayload []) = some .overrun ∧
    failure (IndexedSeqWalker.fromPayload [1, 254]) = some .invalidIntegerEncoding := by decide +kernel

/-! ## `/repo/src/optimised/indexed/map_walk.rs`, `/repo/tests/corruption.rs` -/

/-- `three_entry_map`: `bar` ↦ `7`, `baz` ↦ `99`, `foo` ↦ `42`. -/
def three : Bytes :=
  [1, 3] ++ packInterleaved [(0, 0), (3, 1), (6, 3)] ++ le 9 ++ le 5 ++ raw "barbazfoo" ++ raw "79942"

/-- `three_entry_map` after `corrupt_key_off(&mut payload, 1, u32::MAX)`. -/
def threeBad : Bytes :=
  [1, 3] ++ packInterleaved [(0, 0), (2 ^ 32 - 1, 1), (6, 3)] ++ le 9 ++ le 5 ++ raw "barbazfoo" ++ raw "79942"

/-- `|k| k.cmp(needle)`. -/
def is (needle : String) (k : Bytes) : Ordering := cmpBytes k (raw needle)

/-- `opens_indexed_map_and_finds_keys`, `iter_returns_pairs_in_sorted_order`. -/
example : (do let w ← IndexedMapWalker.fromPayload three; pure (w.len, w.isIndexed)) = .ok (3, true) ∧
    (do let w ← IndexedMapWalker.fromPayload three; w.findValueBytes (is "baz")) = .ok (some (raw "99")) ∧
    (do let w ← IndexedMapWalker.fromPayload three; w.findValueBytes (is "foo")) = .ok (some (raw "42")) ∧
    (do let w ← IndexedMapWalker.fromPayload three; w.findValueBytes (is "missing")) = .ok none ∧
    (do let w ← IndexedMapWalker.fromPayload three; pure w.entries) =
      .ok (some (.ok [(raw "bar", raw "7"), (raw "baz", raw "99"), (raw "foo", raw "42")])) := by decide +kernel

/-- `legacy_map_passes_through`, `hinted_lookup_on_legacy_map_errors`. -/
example : (do let w ← IndexedMapWalker.fromPayload [0, 2, 0xAA, 0xBB]; pure (w.isIndexed, w.len, w.legacyBody)) =
      .ok (false, 2, some [0xAA, 0xBB]) ∧
    Fails (do let w ← IndexedMapWalker.fromPayload [0, 2, 0xAA, 0xBB]; w.findValueBytes fun _ => .eq) ∧
    Fails (do let w ← IndexedMapWalker.fromPayload [0, 2, 0xAA, 0xBB]; w.findWithHint none fun _ => .eq) := by
  decide +kernel

/-- What a hinted lookup gives: the value and the hint for next time. -/
def hinted (m : Bytes) (validate : Bool) (hint : Option Nat) (needle : String) : Res (Option Bytes × Option Nat) := do
  let w ← IndexedMapWalker.fromPayloadInner m validate
  let h ← w.findWithHint hint (is needle)
  pure (h.value, h.hint)

/-- `matches!(e, Error::OptimisedOffsetOutOfRange { .. })`. -/
def outOfRange : Option Err → Bool
  | some (.offsetOutOfRange _ _) => true
  | _ => false

/-- `hinted_lookup_hits_on_correct_hint`, `hinted_lookup_self_corrects_on_wrong_hint`,
`hinted_lookup_preserves_prior_hint_on_miss`, `hinted_lookup_falls_through_on_out_of_range_hint`,
`hinted_lookup_no_hint_matches_plain_binary_search`. -/
example : hinted three true none "baz" = .ok (some (raw "99"), some 1) ∧
    hinted three true (some 1) "baz" = .ok (some (raw "99"), some 1) ∧
    hinted three true (some 0) "foo" = .ok (some (raw "42"), some 2) ∧
    hinted three true (some 1) "missing" = .ok (none, some 1) ∧
    hinted three true (some 50) "foo" = .ok (some (raw "42"), some 2) ∧
    hinted three true none "bar" = .ok (some (raw "7"), some 0) := by
  refine ⟨?_, ?_, ?_, ?_, ?_, ?_⟩ <;> decide +kernel

/-- `validated_rejects_out_of_range_offset_at_construction`,
`unvalidated_entries_clamp_corrupt_offset_without_panicking`. -/
example : Fails (IndexedMapWalker.fromPayload threeBad) ∧
    (do let w ← IndexedMapWalker.fromPayloadUnvalidated threeBad
        match w.entries with
        | some r => (fun l : List (Bytes × Bytes) => (l.length, l.any fun e => e.1.isEmpty)) <$> r
        | none => .panic) = .ok (3, true) := by decide +kernel

/-- `unvalidated_find_value_bytes_errors_instead_of_panicking`,
`hinted_lookup_on_unvalidated_map_ignores_corrupt_key_at_hinted_slot`,
`hinted_lookup_on_unvalidated_map_recovers_via_hint_when_search_would_hit_corruption`. -/
example : outOfRange (failure do
      let w ← IndexedMapWalker.fromPayloadUnvalidated threeBad; w.findValueBytes (is "baz")) ∧
    outOfRange (failure (hinted threeBad false (some 1) "foo")) ∧
    hinted threeBad false (some 2) "foo" = .ok (some (raw "42"), some 2) := by decide +kernel

/-- `corruption.rs`: `indexed_map_with_unsorted_keys_errors`, `indexed_map_with_duplicate_keys_errors`,
`indexed_map_with_mismatched_offset_tables_errors`. -/
example : failure (IndexedMapWalker.fromPayload
      ([1, 2] ++ packInterleaved [(0, 0), (1, 1)] ++ le 2 ++ le 2 ++ raw "baXY")) = some .keysNotAscending ∧
    failure (IndexedMapWalker.fromPayload
      ([1, 2] ++ packInterleaved [(0, 0), (1, 1)] ++ le 2 ++ le 2 ++ raw "aaXY")) = some .keysNotAscending ∧
    failure (IndexedMapWalker.fromPayload ([1, 2] ++ packInterleaved [(0, 0)])) = some .overrun := by decide +kernel

/-! ## `/repo/src/optimised/indexed/serialize.rs` -/

/-- The impls of `String` and `u32`. -/
abbrev strings : Codec String := on .string
abbrev u32s : Codec (BitVec 32) := on (.int .u32)

/-- Whether the payload is indexed, and how many entries it has. -/
def opened (b : Bytes) : Res (Bool × Nat) := do
  let w ← IndexedMapWalker.fromPayload b
  pure (w.isIndexed, w.len)
def openedSeq (b : Bytes) : Res (Bool × Nat) := do
  let w ← IndexedSeqWalker.fromPayload b
  pure (w.isIndexed, w.len)

/-- Sorting does not reduce in the kernel: entries that are already in order are written as they are. -/
theorem entries_in_order {κ ν : Type} {k : κ → Res Bytes} {v : ν → Res Bytes} {l : List (κ × ν)}
    {pairs : List (Bytes × Bytes)} (h : encEach (encPair k v) l = .ok pairs)
    (hs : pairs.Pairwise fun a b => (cmpBytes a.1 b.1).isLE = true) :
    serializeIndexedEntries k v l = writeMapPairs pairs := by
  simp only [serializeIndexedEntries, h]
  exact congrArg writeMapPairs (List.mergeSort_of_pairwise hs)

/-- The bytes of the map of `round_trip_indexed_map_of_strings_below_threshold_uses_legacy_body`. -/
def few : Bytes := [0, 3] ++ [5] ++ raw "alpha" ++ [1, 5] ++ raw "bravo" ++ [2, 7] ++ raw "charlie" ++ [3]

/-- … and of `round_trip_indexed_map_at_threshold_emits_offset_table`. -/
def many : Bytes := [1, 8] ++ packInterleaved ((List.range 8).map fun i => (2 * i, i)) ++ le 16 ++ le 8 ++
  [1, 97, 1, 98, 1, 99, 1, 100, 1, 101, 1, 102, 1, 103, 1, 104] ++ [0, 1, 2, 3, 4, 5, 6, 7]

/-- `round_trip_indexed_map_of_strings_below_threshold_uses_legacy_body`,
`round_trip_indexed_map_at_threshold_emits_offset_table`. -/
example : serializeIndexedEntries strings.enc u32s.enc [("alpha", 1), ("bravo", 2), ("charlie", 3)] = .ok few ∧
    opened few = .ok (false, 3) ∧
    serializeIndexedEntries strings.enc u32s.enc
      [("a", 0), ("b", 1), ("c", 2), ("d", 3), ("e", 4), ("f", 5), ("g", 6), ("h", 7)] = .ok many ∧
    opened many = .ok (true, 8) ∧
    (do let w ← IndexedMapWalker.fromPayload many; pure (w.entries.map fun r => List.length <$> r)) =
      .ok (some (.ok 8)) := by
  refine ⟨?_, by decide +kernel, ?_, by decide +kernel, by decide +kernel⟩
  · rw [entries_in_order (pairs := [(5 :: raw "alpha", [1]), (5 :: raw "bravo", [2]), (7 :: raw "charlie", [3])])
      (by decide +kernel) (by decide +kernel)]
    decide +kernel
  · rw [entries_in_order (pairs := [([1, 97], [0]), ([1, 98], [1]), ([1, 99], [2]), ([1, 100], [3]), ([1, 101], [4]),
      ([1, 102], [5]), ([1, 103], [6]), ([1, 104], [7])]) (by decide +kernel) (by decide +kernel)]
    decide +kernel

/-- `round_trip_indexed_seq_below_threshold_uses_legacy_body`,
`round_trip_indexed_seq_at_threshold_emits_offset_table`, `serialize_then_deserialize_indexed_seq_round_trips`. -/
example : (do openedSeq (← serializeIndexedSeq u32s.enc [10, 20, 30])) = .ok (false, 3) ∧
    (do openedSeq (← serializeIndexedSeq u32s.enc [0, 1, 2, 3, 4, 5, 6, 7])) = .ok (true, 8) ∧
    Again (indexedSeqC (fun _ => true) u32s) [10, 20, 30, 40, 50] 7 := by decide +kernel

/-- `serialize_then_deserialize_indexed_map_round_trips`, on `few`. -/
example : (indexedBTreeMapC (fun _ => true) (fun _ => true) (demoCmp .string) strings u32s).dec few =
    .ok ([("alpha", 1), ("bravo", 2), ("charlie", 3)], []) := by decide +kernel

/-- `indexed_map_walker_finds_serialised_key`: the keys are one byte each, so they are in order. -/
example : (do
    let pairs ← encEach (encPair u32s.enc u32s.enc)
      ((List.range 16).map fun i => (BitVec.ofNat 32 i, BitVec.ofNat 32 (i * 10)))
    let w ← IndexedMapWalker.fromPayload (← writeMapPairs pairs)
    let key ← u32s.enc 7
    w.findValueBytes fun k => cmpBytes k key) = .ok (some [70]) := by decide +kernel

/-! ## `/repo/src/slice_reader.rs` -/

/-- `slice_reader_position_tracks_consumed`, `slice_reader_sub_carves_subrange`, `slice_reader_sub_rejects_overflow`,
`slice_reader_sub_after_consume`, `slice_reader_sub_rejects_offset_before_cursor`. -/
example :
    (((SliceReader.new [0, 1, 2, 3, 4]).consume 2).2.consumedLen, ((SliceReader.new [0, 1, 2, 3, 4]).consume 2).1) =
      (.ok 2, .ok ()) ∧
    (do pure (← (SliceReader.new [0, 1, 2, 3, 4, 5]).sub 2 3).remaining) = .ok [2, 3, 4] ∧
    failure ((SliceReader.new [0, 1, 2, 3]).sub 2 3) = some .overrun ∧
    (do pure (← ((SliceReader.new [0, 1, 2, 3, 4, 5]).consume 2).2.sub 3 2).remaining) = .ok [3, 4] ∧
    Fails (((SliceReader.new [0, 1, 2, 3]).consume 2).2.sub 1 1) := by decide +kernel

/-- `take_bytes_reader_advances_and_returns_borrow`, `borrowed_reader_blanket_impl_forwards_to_underlying`. -/
example : ((SliceReader.new [1, 2, 3, 4]).takeBytes 3).1 = .ok [1, 2, 3] ∧
    ((SliceReader.new [1, 2, 3, 4]).takeBytes 3).2.remaining = [4] ∧
    (SliceReader.new [10, 20, 30, 40, 50, 60]).peek 3 = .ok [10, 20, 30] := by decide +kernel

end Revision.Suite
