{
 "claims": [
  {
   "property": "C01",
   "status": "proved",
   "theorems": [
    "Revision.C01_unsigned_round_trip"
   ],
   "note": ""
  },
  {
   "property": "C02",
   "status": "proved",
   "theorems": [
    "Revision.C02_signed_round_trip",
    "Revision.C02_small_magnitude"
   ],
   "note": ""
  },
  {
   "property": "C03",
   "status": "proved",
   "theorems": [
    "Revision.C03_exact_size",
    "Revision.C03_minimal"
   ],
   "note": ""
  },
  {
   "property": "C04",
   "status": "proved",
   "theorems": [
    "Revision.C04_same_number",
    "Revision.C04_overflow",
    "Revision.C04_written_wide_read_narrow"
   ],
   "note": ""
  },
  {
   "property": "C05",
   "status": "proved",
   "theorems": [
    "Revision.C05_round_trip",
    "Revision.C05_path_refused"
   ],
   "note": ""
  },
  {
   "property": "C06",
   "status": "proved",
   "theorems": [
    "Revision.C06_framing",
    "Revision.C06_back_to_back"
   ],
   "note": ""
  },
  {
   "property": "C07",
   "status": "proved",
   "theorems": [
    "Revision.C07_injective_prefix_free"
   ],
   "note": ""
  },
  {
   "property": "C08",
   "status": "proved",
   "theorems": [
    "Revision.C08_skip_follows_decode"
   ],
   "note": ""
  },
  {
   "property": "C09",
   "status": "partial",
   "theorems": [
    "Revision.C09_checked_skip_strict",
    "Revision.C09_slice_errors",
    "Revision.C09_checked_skip_partial",
    "Revision.C09_checked_skip_false"
   ],
   "note": "Proved as an iff for every type without a bare SystemTime (C09_checked_skip_partial) and in one direction for all (C09_checked_skip_strict); false for SystemTime seconds past i64::MAX, on which decoding panics (C09_checked_skip_false)."
  },
  {
   "property": "C10",
   "status": "proved",
   "theorems": [
    "Revision.C10_extension"
   ],
   "note": ""
  },
  {
   "property": "C11",
   "status": "proved",
   "theorems": [
    "Revision.C11_truncation"
   ],
   "note": ""
  },
  {
   "property": "C12",
   "status": "proved",
   "theorems": [
    "Revision.C12_decoded_well_formed"
   ],
   "note": ""
  },
  {
   "property": "C13",
   "status": "partial",
   "theorems": [
    "Revision.C13_no_panic_partial",
    "Revision.C13_allocation_only",
    "Revision.C13_no_panic_false"
   ],
   "note": "Proved for every type without Duration and SystemTime; for those two decoding can panic (C13_no_panic_false)."
  },
  {
   "property": "C14",
   "status": "proved",
   "theorems": [
    "Revision.C14_bool_strict"
   ],
   "note": ""
  },
  {
   "property": "C15",
   "status": "proved",
   "theorems": [
    "Revision.C15_layout",
    "Revision.C15_decode"
   ],
   "note": ""
  },
  {
   "property": "C16",
   "status": "proved",
   "theorems": [
    "Revision.C16_layout",
    "Revision.C16_layout_float",
    "Revision.C16_round_trip",
    "Revision.C16_overflow"
   ],
   "note": ""
  },
  {
   "property": "C17",
   "status": "proved",
   "theorems": [
    "Revision.C17_encoding",
    "Revision.C17_accepts_iff",
    "Revision.C17_rejects",
    "Revision.C17_lead_byte"
   ],
   "note": ""
  },
  {
   "property": "C18",
   "status": "proved",
   "theorems": [
    "Revision.C18_option",
    "Revision.C18_result",
    "Revision.C18_bound"
   ],
   "note": ""
  },
  {
   "property": "C19",
   "status": "proved",
   "theorems": [
    "Revision.C19_last_occurrence",
    "Revision.C19_any_order",
    "Revision.C19_round_trip"
   ],
   "note": ""
  },
  {
   "property": "C20",
   "status": "proved",
   "theorems": [
    "Revision.C20_same_elements",
    "Revision.C20_round_trip"
   ],
   "note": ""
  },
  {
   "property": "C21",
   "status": "proved",
   "theorems": [
    "Revision.C21_any_iteration_order",
    "Revision.C21_set_any_iteration_order",
    "Revision.C21_set_same_elements",
    "Revision.C21_last_occurrence"
   ],
   "note": ""
  },
  {
   "property": "C22",
   "status": "proved",
   "theorems": [
    "Revision.C22_chunked_advance",
    "Revision.C22_bounded_chunks",
    "Revision.C22_net_effect"
   ],
   "note": ""
  },
  {
   "property": "C23",
   "status": "proved",
   "theorems": [
    "Revision.C23_reader_is_cursor",
    "Revision.C23_consumed_plus_remaining",
    "Revision.C23_bare_slices_agree"
   ],
   "note": ""
  },
  {
   "property": "C24",
   "status": "proved",
   "theorems": [
    "Revision.C24_string",
    "Revision.C24_path",
    "Revision.C24_bytes",
    "Revision.C24_leaf",
    "Revision.C24_vec",
    "Revision.C24_marked",
    "Revision.C24_bytes_iff"
   ],
   "note": ""
  },
  {
   "property": "C25",
   "status": "proved",
   "theorems": [
    "Revision.C25_option",
    "Revision.C25_option_payload",
    "Revision.C25_result",
    "Revision.C25_result_payload"
   ],
   "note": ""
  },
  {
   "property": "C26",
   "status": "proved",
   "theorems": [
    "Revision.C26_vec",
    "Revision.C26_sets"
   ],
   "note": ""
  },
  {
   "property": "C27",
   "status": "proved",
   "theorems": [
    "Revision.C27_map",
    "Revision.C27_pairs",
    "Revision.C27_out_of_order"
   ],
   "note": ""
  },
  {
   "property": "C28",
   "status": "proved",
   "theorems": [
    "Revision.C28_find",
    "Revision.C28_find_serialised",
    "Revision.C28_find_bytes",
    "Revision.C28_find_bytes_marked"
   ],
   "note": ""
  },
  {
   "property": "C29",
   "status": "proved",
   "theorems": [
    "Revision.C29_bulk_refused",
    "Revision.C29_accepted_elementwise",
    "Revision.C29_refused_iff"
   ],
   "note": ""
  },
  {
   "property": "C30",
   "status": "proved",
   "theorems": [
    "Revision.C30_layout",
    "Revision.C30_round_trip",
    "Revision.C30_read",
    "Revision.C30_reserved_clear",
    "Revision.C30_extended",
    "Revision.C30_envelopes"
   ],
   "note": ""
  },
  {
   "property": "C31",
   "status": "partial",
   "theorems": [
    "Revision.C31_reserved_bit_false",
    "Revision.C31_reserved_bit_partial"
   ],
   "note": "False of the code: 96 bytes with bit 7 set are read as if it were clear (C31_reserved_bit_false); the exact behaviour is proved."
  },
  {
   "property": "C32",
   "status": "proved",
   "theorems": [
    "Revision.C32_varlen_slice",
    "Revision.C32_varlen_skip",
    "Revision.C32_overrun",
    "Revision.C32_varlen_write",
    "Revision.C32_varlen_round_trip",
    "Revision.C32_inline_fixed_round_trip"
   ],
   "note": ""
  },
  {
   "property": "C33",
   "status": "proved",
   "theorems": [
    "Revision.C33_struct_fields",
    "Revision.C33_accepts_iff",
    "Revision.C33_no_panic"
   ],
   "note": ""
  },
  {
   "property": "C34",
   "status": "proved",
   "theorems": [
    "Revision.C34_fields",
    "Revision.C34_validated_iff",
    "Revision.C34_decode_field"
   ],
   "note": ""
  },
  {
   "property": "C35",
   "status": "proved",
   "theorems": [
    "Revision.C35_accepted_layout",
    "Revision.C35_accepted_lookup",
    "Revision.C35_accepted_key"
   ],
   "note": ""
  },
  {
   "property": "C36",
   "status": "proved",
   "theorems": [
    "Revision.C36_hint",
    "Revision.C36_legacy"
   ],
   "note": ""
  },
  {
   "property": "C37",
   "status": "proved",
   "theorems": [
    "Revision.C37_map",
    "Revision.C37_seq",
    "Revision.C37_struct"
   ],
   "note": ""
  },
  {
   "property": "C38",
   "status": "partial",
   "theorems": [
    "Revision.C38_empty_indexed_map_false",
    "Revision.C38_map_overflow_false",
    "Revision.C38_seq_overflow_false",
    "Revision.C38_struct",
    "Revision.C38_map_partial",
    "Revision.C38_seq_partial"
   ],
   "note": "False for three shapes of header (the _false theorems); proved that construction panics on no others. Structs: proved in full (C38_struct)."
  },
  {
   "property": "C39",
   "status": "proved",
   "theorems": [
    "Revision.C39_btreemap",
    "Revision.C39_hashmap"
   ],
   "note": ""
  },
  {
   "property": "C40",
   "status": "proved",
   "theorems": [
    "Revision.C40_map_canonical"
   ],
   "note": ""
  },
  {
   "property": "C41",
   "status": "proved",
   "theorems": [
    "Revision.C41_lookup",
    "Revision.C41_probe",
    "Revision.C41_short"
   ],
   "note": ""
  },
  {
   "property": "C42",
   "status": "proved",
   "theorems": [
    "Revision.C42_round_trip",
    "Revision.C42_random_access",
    "Revision.C42_short"
   ],
   "note": ""
  },
  {
   "property": "C43",
   "status": "proved",
   "theorems": [
    "Revision.C43_canonical",
    "Revision.C43_btreeset",
    "Revision.C43_hashset",
    "Revision.C43_short",
    "Revision.C43_sorted"
   ],
   "note": ""
  },
  {
   "property": "C44",
   "status": "proved",
   "theorems": [
    "Revision.C44_map",
    "Revision.C44_seq",
    "Revision.C44_set"
   ],
   "note": ""
  },
  {
   "property": "C45",
   "status": "partial",
   "theorems": [
    "Revision.C45_seq_partial",
    "Revision.C45_map_partial",
    "Revision.C45_seq_false"
   ],
   "note": "Proved for elements, keys and values below 4 GiB each; false beyond (C45_seq_false): lengths are truncated."
  },
  {
   "property": "C46",
   "status": "proved",
   "theorems": [
    "Revision.C46_accepted_valid",
    "Revision.C46_accepted_iff",
    "Revision.C46_history_ascending",
    "Revision.C46_error_truthful",
    "Revision.C46_legacy_syntax",
    "Revision.C46_item_iff",
    "Revision.C46_item_error",
    "Revision.C46_entry",
    "Revision.C46_entry_error"
   ],
   "note": ""
  },
  {
   "property": "C47",
   "status": "proved",
   "theorems": [
    "Revision.C47_window",
    "Revision.C47_interval",
    "Revision.C47_options_accepted_iff",
    "Revision.C47_options_recorded",
    "Revision.C47_bounds_checked"
   ],
   "note": ""
  },
  {
   "property": "C48",
   "status": "proved",
   "theorems": [
    "Revision.C48_layout",
    "Revision.C48_too_long"
   ],
   "note": ""
  },
  {
   "property": "C49",
   "status": "proved",
   "theorems": [
    "Revision.C49_round_trip",
    "Revision.C49_round_trip_types"
   ],
   "note": ""
  },
  {
   "property": "C50",
   "status": "partial",
   "theorems": [
    "Revision.C50_migrates_partial",
    "Revision.C50_migrates_types_partial",
    "Revision.C50_shadowing_false",
    "Revision.C50_removed_indexed_false"
   ],
   "note": "Proved except for a new field with the name of a removed one, and removed indexed fields of optimised structs; both false of the code (the _false theorems)."
  },
  {
   "property": "C51",
   "status": "proved",
   "theorems": [
    "Revision.C51_unknown_revision",
    "Revision.C51_unknown_revision_enum",
    "Revision.C51_newer_data",
    "Revision.C51_unknown_revision_walk",
    "Revision.C51_unknown_revision_walk_enum"
   ],
   "note": ""
  },
  {
   "property": "C52",
   "status": "proved",
   "theorems": [
    "Revision.C52_refused_iff",
    "Revision.C52_total",
    "Revision.C52_injective",
    "Revision.C52_override_honoured",
    "Revision.C52_implicit_ascending",
    "Revision.C52_implicit_least",
    "Revision.C52_stable",
    "Revision.C52_variant_name",
    "Revision.C52_optimised_fits",
    "Revision.C52_variant_table",
    "Revision.C52_table_is_names",
    "Revision.C52_field_names"
   ],
   "note": ""
  },
  {
   "property": "C53",
   "status": "partial",
   "theorems": [
    "Revision.C53_layout",
    "Revision.C53_round_trip_partial",
    "Revision.C53_fixed_size_false",
    "Revision.C53_unknown_variant"
   ],
   "note": "Proved except for a fixed(n) variant whose payload is not n bytes, which a release build writes and cannot read (C53_fixed_size_false)."
  },
  {
   "property": "C54",
   "status": "partial",
   "theorems": [
    "Revision.C54_migrates_partial",
    "Revision.C54_migrates_types_partial",
    "Revision.C54_optimised_fields_false"
   ],
   "note": "Proved except for fields added to or removed from a variant since an optimised revision (C54_optimised_fields_false)."
  },
  {
   "property": "C55",
   "status": "partial",
   "theorems": [
    "Revision.C55_skip_partial",
    "Revision.C55_skip_types_partial",
    "Revision.C55_specialised_false",
    "Revision.C55_skip_enum_partial",
    "Revision.C55_skip_enum_types_partial"
   ],
   "note": "Proved except for specialised fields without the specialised-vectors feature (C55_specialised_false)."
  },
  {
   "property": "C56",
   "status": "partial",
   "theorems": [
    "Revision.C56_skip_known_partial",
    "Revision.C56_unknown_tag_false"
   ],
   "note": "Proved for tags of live variants; false for unknown tags and wrong size classes (C56_unknown_tag_false)."
  },
  {
   "property": "C57",
   "status": "partial",
   "theorems": [
    "Revision.C57_legacy_partial",
    "Revision.C57_optimised",
    "Revision.C57_indexed_partial",
    "Revision.C57_converted_partial",
    "Revision.C57_fixed_false",
    "Revision.C57_legacy_indexed_false",
    "Revision.C57_indexed_field_false",
    "Revision.C57_older_indexed_false",
    "Revision.C57_converted_false"
   ],
   "note": "Proved in full for optimised revisions; for legacy, indexed and converted data except in the five cases shown to be false of the code."
  },
  {
   "property": "C58",
   "status": "partial",
   "theorems": [
    "Revision.C58_any_order_partial",
    "Revision.C58_field_bytes_partial"
   ],
   "note": "Proved except for indexed_* fields and data older than the last added field, where it is false (C57_indexed_field_false, C57_older_indexed_false)."
  },
  {
   "property": "C59",
   "status": "partial",
   "theorems": [
    "Revision.C59_legacy",
    "Revision.C59_optimised_partial",
    "Revision.C59_current",
    "Revision.C59_converted_partial",
    "Revision.C59_moved_discriminant_false",
    "Revision.C59_converted_false"
   ],
   "note": "Proved for legacy and current data, for optimised data unless discriminants moved, for converted data unless the current revision is optimised; the two exceptions are false of the code."
  },
  {
   "property": "C60",
   "status": "partial",
   "theorems": [
    "Revision.C60_struct_partial",
    "Revision.C60_field_bytes",
    "Revision.C60_indexed_false",
    "Revision.C60_bad_offset_false",
    "Revision.C60_enum_walk",
    "Revision.C60_enum_methods"
   ],
   "note": "Proved for structs without indexed revisions and for all enums; false for indexed structs (C60_indexed_false, C60_bad_offset_false)."
  },
  {
   "property": "C61",
   "status": "partial",
   "theorems": [
    "Revision.C61_key_byte_order_false",
    "Revision.C61_key_byte_order_partial"
   ],
   "note": "The documented claim is false of the code (little-endian): C61_key_byte_order_false. Proved instead: reversed byte strings compare as the integers."
  },
  {
   "property": "C62",
   "status": "proved",
   "theorems": [
    "Revision.C62_duration_decode",
    "Revision.C62_round_trip",
    "Revision.C62_pre_epoch"
   ],
   "note": ""
  },
  {
   "property": "C63",
   "status": "proved",
   "theorems": [
    "Revision.C63_fixed_field"
   ],
   "note": ""
  },
  {
   "property": "C64",
   "status": "proved",
   "theorems": [
    "Revision.C64_heap"
   ],
   "note": ""
  },
  {
   "property": "C65",
   "status": "proved",
   "theorems": [
    "Revision.C65_walker_kind",
    "Revision.C65_traversal",
    "Revision.C65_same_position"
   ],
   "note": ""
  },
  {
   "property": "C66",
   "status": "proved",
   "theorems": [
    "Revision.C66_struct_walker",
    "Revision.C66_enum_walker"
   ],
   "note": ""
  },
  {
   "property": "C67",
   "status": "partial",
   "theorems": [
    "Revision.C67_plans",
    "Revision.C67_field_bytes",
    "Revision.C67_view_false",
    "Revision.C67_walk_field",
    "Revision.C67_view_partial"
   ],
   "note": "Proved for decoding, skipping, raw bytes, walking into a field and the view of a field the data has; false for the view of an indexed field the data does not have (C67_view_false)."
  },
  {
   "property": "C68",
   "status": "proved",
   "theorems": [
    "Revision.C68_struct",
    "Revision.C68_enum",
    "Revision.C68_supported_fields",
    "Revision.C68_program"
   ],
   "note": ""
  },
  {
   "property": "C69",
   "status": "partial",
   "theorems": [
    "Revision.C69_seq_set",
    "Revision.C69_map_skip",
    "Revision.C69_map_partial",
    "Revision.C69_map_overflow_false"
   ],
   "note": "Proved for sequences and sets, and for maps except one declared length (C69_map_overflow_false)."
  },
  {
   "property": "C70",
   "status": "partial",
   "theorems": [
    "Revision.C70_legacy_partial",
    "Revision.C70_optimised_partial",
    "Revision.C70_converted_partial",
    "Revision.C70_added_field_false",
    "Revision.C70_fixed_false"
   ],
   "note": "Proved except for fields added since, fixed and specialised fields, moved discriminants and converted data of optimised enums; false there (the _false theorems)."
  },
  {
   "property": "C71",
   "status": "proved",
   "theorems": [
    "Revision.C71_wire_format",
    "Revision.C71_readable"
   ],
   "note": ""
  },
  {
   "property": "C72",
   "status": "proved",
   "theorems": [
    "Revision.C72_seq",
    "Revision.C72_set",
    "Revision.C72_set_sorted",
    "Revision.C72_map",
    "Revision.C72_map_sorted",
    "Revision.C72_struct",
    "Revision.C72_enum"
   ],
   "note": ""
  },
  {
   "property": "C73",
   "status": "partial",
   "theorems": [
    "Revision.C73_round_trip_partial",
    "Revision.C73_depth_written",
    "Revision.C73_any_depth_partial",
    "Revision.C73_injective_partial"
   ],
   "note": "Proved for all programs except declarations for which C50, C53, C54 or C55 are false (Program.Readable)."
  },
  {
   "property": "C74",
   "status": "partial",
   "theorems": [
    "Revision.C74_nested_migration_partial"
   ],
   "note": "Proved for all programs except declarations for which C50, C54 or C55 are false (Program.Readable)."
  },
  {
   "property": "C75",
   "status": "partial",
   "theorems": [
    "Revision.C75_date",
    "Revision.C75_duration",
    "Revision.C75_time_partial",
    "Revision.C75_datetime_partial",
    "Revision.C75_time_false",
    "Revision.C75_datetime_false"
   ],
   "note": "Dates and durations: all. Times of day and points in time with a leap second elsewhere than at the end of a minute (with_nanosecond makes them) are written and then refused on reading: C75_time_false, C75_datetime_false; all others come back."
  },
  {
   "property": "C76",
   "status": "proved",
   "theorems": [
    "Revision.C76_time",
    "Revision.C76_date",
    "Revision.C76_datetime",
    "Revision.C76_duration",
    "Revision.C76_written",
    "Revision.C76_no_panic"
   ],
   "note": ""
  },
  {
   "property": "C77",
   "status": "partial",
   "theorems": [
    "Revision.C77_line",
    "Revision.C77_lines",
    "Revision.C77_polygon_partial",
    "Revision.C77_polygon_reachable",
    "Revision.C77_nan_false",
    "Revision.C77_polygons_partial",
    "Revision.C77_skip"
   ],
   "note": "Coordinates, points, lines and collections of lines: all. Polygons: those with closed rings, which is every polygon built from rings not starting at a NaN (C77_polygon_reachable). A ring starting at a NaN grows by one coordinate on every round trip: C77_nan_false."
  },
  {
   "property": "C78",
   "status": "proved",
   "theorems": [
    "Revision.C78_same_bytes",
    "Revision.C78_same_reader",
    "Revision.C78_round_trip",
    "Revision.C78_overflow",
    "Revision.C78_skip"
   ],
   "note": ""
  },
  {
   "property": "C79",
   "status": "partial",
   "theorems": [
    "Revision.C79_pattern",
    "Revision.C79_round_trip_partial",
    "Revision.C79_options_false",
    "Revision.C79_bitmap"
   ],
   "note": "Text that does not parse is refused, the text always comes back, bitmaps come back. An expression built with options of RegexBuilder comes back without them: C79_options_false."
  },
  {
   "property": "C80",
   "status": "proved",
   "theorems": [
    "Revision.C80_lawful",
    "Revision.C80_round_trip"
   ],
   "note": ""
  },
  {
   "property": "C81",
   "status": "partial",
   "theorems": [
    "Revision.C81_truncated_partial",
    "Revision.C81_truncated_kind",
    "Revision.C81_truncated_skip",
    "Revision.C81_truncated_false",
    "Revision.C81_final_partial",
    "Revision.C81_final_false",
    "Revision.C81_io_means_short",
    "Revision.C81_utf8"
   ],
   "note": "Error::Io by skipping for every type, by decoding for every type without Result and Bound; those report Error::Deserialize for any error inside them, so neither direction holds with them: C81_truncated_false, C81_final_false. C81_truncated_kind covers all types with the two kinds."
  },
  {
   "property": "C82",
   "status": "proved",
   "theorems": [
    "Revision.C82_decode",
    "Revision.C82_skip",
    "Revision.C82_check",
    "Revision.C82_pieces_do_not_matter",
    "Revision.C82_round_trip"
   ],
   "note": ""
  },
  {
   "property": "C83",
   "status": "partial",
   "theorems": [
    "Revision.C83_to_vec",
    "Revision.C83_any_writer_partial",
    "Revision.C83_subsequence",
    "Revision.C83_own_error_partial",
    "Revision.C83_willing_partial",
    "Revision.C83_steady",
    "Revision.C83_slice_partial",
    "Revision.C83_bool_false",
    "Revision.C83_bool_middle_false",
    "Revision.C83_bool_interrupted_false"
   ],
   "note": "Proved for every type that writes no single bool. bool is written with write instead of write_all and the count is ignored: C83_bool_false, C83_bool_middle_false, C83_bool_interrupted_false. On writers whose every call accepts at least a byte it holds for all types: C83_steady."
  },
  {
   "property": "C84",
   "status": "proved",
   "theorems": [
    "Revision.C84_big_endian"
   ],
   "note": ""
  },
  {
   "property": "C85",
   "status": "proved",
   "theorems": [
    "Revision.C85_btree_map",
    "Revision.C85_hash_map",
    "Revision.C85_seq",
    "Revision.C85_btree_set",
    "Revision.C85_hash_set",
    "Revision.C85_accepted_map",
    "Revision.C85_accepted_seq"
   ],
   "note": ""
  },
  {
   "property": "C86",
   "status": "partial",
   "theorems": [
    "Revision.C86_accepted_iff",
    "Revision.C86_recorded",
    "Revision.C86_override",
    "Revision.C86_override_honoured_partial",
    "Revision.C86_override_honoured_false",
    "Revision.C86_override_revision_false",
    "Revision.C86_size",
    "Revision.C86_size_unambiguous"
   ],
   "note": "Acceptance, recording and the size text are proved in full. An override is in force if no later override names the same revision: of two, the first is dropped silently (C86_override_honoured_false), and one for a revision that does not exist is never noticed (C86_override_revision_false)."
  },
  {
   "property": "C87",
   "status": "proved",
   "theorems": [
    "Revision.C87_struct",
    "Revision.C87_enum"
   ],
   "note": ""
  },
  {
   "property": "C88",
   "status": "partial",
   "theorems": [
    "Revision.C88_legacy_plans_partial",
    "Revision.C88_legacy_field_partial",
    "Revision.C88_converted_plans_partial",
    "Revision.C88_converted_field_partial"
   ],
   "note": "Proved for fields without fixed, specialised and indexed_* in legacy data (with them the code violates it: C57_fixed_false, C57_legacy_indexed_false) and for a legacy current revision in converted data (otherwise C57_converted_false)."
  },
  {
   "property": "C89",
   "status": "partial",
   "theorems": [
    "Revision.C89_walk_optimised",
    "Revision.C89_unit",
    "Revision.C89_other",
    "Revision.C89_legacy_partial",
    "Revision.C89_optimised_partial",
    "Revision.C89_converted_partial"
   ],
   "note": "Missing for the reasons of C59 and C70: discriminants that moved since an optimised revision (C59_moved_discriminant_false), an optimised current revision for converted data (C59_converted_false), and fields added since or with fixed or specialised in legacy data (C70_added_field_false, C70_fixed_false)."
  },
  {
   "property": "C90",
   "status": "proved",
   "theorems": [
    "Revision.C90_decode",
    "Revision.C90_skip",
    "Revision.C90_check",
    "Revision.C90_decode_in"
   ],
   "note": ""
  },
  {
   "property": "C91",
   "status": "partial",
   "theorems": [
    "Revision.C91_to_vec",
    "Revision.C91_any_writer_optimised",
    "Revision.C91_any_writer_partial",
    "Revision.C91_steady",
    "Revision.C91_willing_optimised",
    "Revision.C91_willing_partial",
    "Revision.C91_own_error_optimised",
    "Revision.C91_legacy_bool_false",
    "Revision.C91_legacy_own_error_false"
   ],
   "note": "Proved in full for types whose current encoding is optimised (bool fields included) and on writers whose every call accepts a byte. Legacy types: bool fields are excluded, with them the code violates it (C91_legacy_bool_false); and fields before the one that cannot be serialised have already been written (C91_legacy_own_error_false)."
  },
  {
   "property": "C92",
   "status": "partial",
   "theorems": [
    "Revision.C92_truncated_partial",
    "Revision.C92_truncated_kind",
    "Revision.C92_truncated_skip",
    "Revision.C92_record_cut_partial",
    "Revision.C92_final_partial",
    "Revision.C92_io_means_short_partial",
    "Revision.C92_truncated_false",
    "Revision.C92_io_means_short_false"
   ],
   "note": "Skipping is proved in full. Decoding: Result and Bound fields at legacy revisions are excluded (C92_truncated_false); that Error::Io means missing input holds without optimised revisions, inside whose payload an overrun is also reported as end of file (C92_io_means_short_false)."
  },
  {
   "property": "C93",
   "status": "partial",
   "theorems": [
    "Revision.C93_pipe_partial",
    "Revision.C93_pipe_migration_partial"
   ],
   "note": "Proved for the declarations of C73 and C74."
  },
  {
   "property": "C94",
   "status": "partial",
   "theorems": [
    "Revision.C94_valid_input_partial",
    "Revision.C94_program_partial",
    "Revision.C94_program_refusal",
    "Revision.C94_hostile_false",
    "Revision.C94_weightless_false",
    "Revision.C94_buffers_partial",
    "Revision.C94_buffers_refusal",
    "Revision.C94_buffers",
    "Revision.C94_payload_false",
    "Revision.C94_payload_enum_false"
   ],
   "note": "Proved for every input that decodes and all types whose collections have elements of at least one byte. False for elements that take no bytes (C94_weightless_false) and for inputs that do not decode: the declared length is requested before anything is read (C94_hostile_false; C94_payload_false and C94_payload_enum_false for the 4 GiB buffers of optimised payloads, which Program.bufCodec models; C94_buffers: where those are granted it is the model used elsewhere)."
  },
  {
   "property": "C95",
   "status": "partial",
   "theorems": [
    "Revision.C95_skip_partial",
    "Revision.C95_program_partial",
    "Revision.C95_skip_false"
   ],
   "note": "Proved for all types without PathBuf, whose skip decodes it (C95_skip_false)."
  },
  {
   "property": "C96",
   "status": "partial",
   "theorems": [
    "Revision.C96_view_partial",
    "Revision.C96_indexed_record_partial",
    "Revision.C96_streamed_record_partial",
    "Revision.C96_converted_record_partial",
    "Revision.C96_weightless_false",
    "Revision.C96_weightless_values_false"
   ],
   "note": "Proved for views of any collection and for the three representations of struct walkers. False for eight or more keys, values or elements that take no bytes (C96_weightless_false, C96_weightless_values_false); the record theorems carry the gaps of C57, C67 and C88."
  },
  {
   "property": "C97",
   "status": "partial",
   "theorems": [
    "Revision.C97_accepted_iff_partial",
    "Revision.C97_raw_false",
    "Revision.C97_no_panic_partial",
    "Revision.C97_sound"
   ],
   "note": "Both directions, for every definition as a list of attributes, names and types (C104 starts from the tokens). C97_sound needs different names of live variants (the Rust compiler refuses the emitted enum otherwise) and discriminants of 32 bits. Missing: with walk, raw identifiers (r#type) of fields and variants of the current revision, on which the macro panics (C97_raw_false; F42)."
  },
  {
   "property": "C98",
   "status": "partial",
   "theorems": [
    "Revision.C98_switches_partial",
    "Revision.C98_below_false",
    "Revision.C98_twice_false",
    "Revision.C98_defaults",
    "Revision.C98_item"
   ],
   "note": "Proved for switches in the arguments of the macro; in an attribute below it, the form its documentation shows, they are accepted and ignored (C98_below_false), and serialize and deserialize may be given twice (C98_twice_false)."
  },
  {
   "property": "C99",
   "status": "partial",
   "theorems": [
    "Revision.C99_readable",
    "Revision.C99_round_trip_partial",
    "Revision.C99_migration_partial"
   ],
   "note": "From the source text as written to the bytes. Assumed of the source is only what rustc checks (distinct names, u32 literals). Missing: the declarations for which C50, C53, C54 or C55 are false: removed indexed fields and changed variant fields of optimised revisions (Stable), `specialised` fields without the cargo feature (NoBulk), fixed-size fields of other sizes (valid)."
  },
  {
   "property": "C100",
   "status": "partial",
   "theorems": [
    "Revision.C100_depth_partial",
    "Revision.C100_skip_depth",
    "Revision.C100_no_limit"
   ],
   "note": "Missing: programs with a convert_fn that wraps the value it gets in a further level (Program.DepthFree excludes them, as values at a fixed depth cannot be wrapped). C100_no_limit shows the bound is of the right order and that the code has no limit of its own (F37). C100_skip_depth is unconditional."
  },
  {
   "property": "C101",
   "status": "partial",
   "theorems": [
    "Revision.C101_path_partial"
   ],
   "note": "Data of the current revision. Missing: fields at which the walkers misread or stop (Program.Open; the counterexamples are C29, C57_*_false, C70_fixed_false, C96_weightless_false), positions in the views of indexed maps and sets (which are in the order of the bytes, not of the value), data of earlier revisions (C108)."
  },
  {
   "property": "C102",
   "status": "partial",
   "theorems": [
    "Revision.C102_read",
    "Revision.C102_truncated",
    "Revision.C102_error_kind",
    "Revision.C102_write",
    "Revision.C102_nested_read",
    "Revision.C102_nested_write_partial",
    "Revision.C102_bitmap_read",
    "Revision.C102_bitmap_write_partial",
    "Revision.C102_bitmap_false"
   ],
   "note": "False of the bitmaps of roaring, whatever that library does: the impls rename every error, so a bitmap cut short and a failing reader are Error::Deserialize, a full writer is Error::Serialize (C102_bitmap_false, F38). Inside containers, writing excludes single bools (C83)."
  },
  {
   "property": "C103",
   "status": "proved",
   "theorems": [
    "Revision.C103_contract",
    "Revision.C103_round_trip",
    "Revision.C103_migration",
    "Revision.C103_read",
    "Revision.C103_write"
   ],
   "note": ""
  },
  {
   "property": "C104",
   "status": "partial",
   "theorems": [
    "Revision.C104_field_options",
    "Revision.C104_variant_options",
    "Revision.C104_item_options",
    "Revision.C104_item_partial",
    "Revision.C104_unambiguous",
    "Revision.C104_accepted_partial",
    "Revision.C104_sound",
    "Revision.C104_discriminant_false",
    "Revision.C104_where_false"
   ],
   "note": "An iff for every token list, with the grammar as a relation. Missing: explicit discriminants and where clauses, which Rust's syntax has and the macro refuses (C104_discriminant_false, C104_where_false; F39, F40), and raw identifiers with walk (C97_raw_false; F42). Types, visibilities and generics are single tokens."
  },
  {
   "property": "C105",
   "status": "partial",
   "theorems": [
    "Revision.C105_exchange_partial",
    "Revision.C105_newer_inside_partial",
    "Revision.C105_newer_refused"
   ],
   "note": "Generalises C74, where the reader is the latest version. Missing: the declarations for which the migration of a single type is not as declared (Program.Exchanges; C50, C54, C55 are false of them). That newer data is refused, with an error, needs no such condition (C105_newer_refused)."
  },
  {
   "property": "C106",
   "status": "partial",
   "theorems": [
    "Revision.C106_upgrade_small_partial",
    "Revision.C106_read_is_value",
    "Revision.C106_value_round_trip_partial",
    "Revision.C106_rewrite_partial",
    "Revision.C106_upgrade_partial"
   ],
   "note": "That what is read is a value is proved for every program whose functions return what they are declared to return (Program.Typed: what the compiler checks) on a machine that grants every allocation it can address. Missing for writing back: the declarations Program.Readable and Program.Writable exclude (C53, C55 and the order of hash maps, C40)."
  },
  {
   "property": "C107",
   "status": "proved",
   "theorems": [
    "Revision.C107_written",
    "Revision.C107_legacy"
   ],
   "note": "Values of types with impls written by hand are assumed to be writable (Program.Complete)."
  },
  {
   "property": "C108",
   "status": "partial",
   "theorems": [
    "Revision.C108_path_partial"
   ],
   "note": "Missing: the steps Program.OpenAt excludes because the walkers misread old data there (C57_older_indexed_false, C57_converted_false, C59_converted_false, C59_moved_discriminant_false, C70_added_field_false, and those of C101) and the declarations Program.Readable excludes."
  },
  {
   "property": "C109",
   "status": "proved",
   "theorems": [
    "Revision.C109_map",
    "Revision.C109_seq",
    "Revision.C109_set",
    "Revision.C109_struct",
    "Revision.C109_into_field_bytes"
   ],
   "note": ""
  },
  {
   "property": "C110",
   "status": "partial",
   "theorems": [
    "Revision.C110_struct_partial",
    "Revision.C110_struct_bounds",
    "Revision.C110_enum_partial",
    "Revision.C110_enum_bounds",
    "Revision.C110_names_legacy",
    "Revision.C110_names_optimised_partial",
    "Revision.C110_names_current",
    "Revision.C110_names_converted_partial",
    "Revision.C110_indexed_false",
    "Revision.C110_optimised_false",
    "Revision.C110_converted_false"
   ],
   "note": "Missing: older data with field offsets or of an optimised enum, and converted data, for which revision() is the current revision (C110_indexed_false, C110_optimised_false, C110_converted_false). In all cases it is the revision of the data or the current one (C110_struct_bounds, C110_enum_bounds)."
  },
  {
   "property": "C111",
   "status": "partial",
   "theorems": [
    "Revision.C111_struct_methods",
    "Revision.C111_struct_partial",
    "Revision.C111_tuple",
    "Revision.C111_struct_false",
    "Revision.C111_snake_partial",
    "Revision.C111_snake_false",
    "Revision.C111_enum_methods",
    "Revision.C111_enum_partial",
    "Revision.C111_enum_false"
   ],
   "note": "Exact conditions, for ASCII names. Missing: fields such as walk and bytes, which both give into_walk_bytes (C111_struct_false), variants such as IsText and TextView (C111_enum_false) or FooBar and Foo_bar (C111_snake_false): the macro accepts them and the generated code does not compile (F43). For tuple structs the names always differ (C111_tuple)."
  },
  {
   "property": "C112",
   "status": "proved",
   "theorems": [
    "Revision.C112_type",
    "Revision.C112_written",
    "Revision.C112_legacy",
    "Revision.C112_refused"
   ],
   "note": "Values of types with impls written by hand are bounded by a given function (Program.Bounded). The bound is not the exact size; C87 and the round trips say what is written."
  },
  {
   "property": "C113",
   "status": "partial",
   "theorems": [
    "Revision.C113_type_partial",
    "Revision.C113_program_partial",
    "Revision.C113_time_false",
    "Revision.C113_indexed_false",
    "Revision.C113_third_partial",
    "Revision.C113_polygon_false"
   ],
   "note": "Missing: times with numbers of varying length, where nanoseconds carry into seconds (C113_time_false), and the indexed encodings of collections, which are read without a table of offsets and written with one (C113_indexed_false), and open polygons, which reading closes (C113_polygon_false); F44. Types of one revision each: migration may add fields."
  },
  {
   "property": "C114",
   "status": "partial",
   "theorems": [
    "Revision.C114_shortest_partial",
    "Revision.C114_shortest_program_partial",
    "Revision.C114_same_partial",
    "Revision.C114_same_program_partial",
    "Revision.C114_one_record_partial",
    "Revision.C114_third_partial",
    "Revision.C114_number_false",
    "Revision.C114_bits_false",
    "Revision.C114_set_false"
   ],
   "note": "False as stated: small numbers are read in longer forms, the unused bits of Vec<bool> are ignored and sets may repeat elements (C114_number_false, C114_bits_false, C114_set_false; F45). Proved: with fixed-width numbers, plain types in the legacy format have one encoding (C114_same_*, C114_one_record_partial); with numbers of varying length the written form is the only shortest one (C114_shortest_*)."
  },
  {
   "property": "C115",
   "status": "proved",
   "theorems": [
    "Revision.C115_vec",
    "Revision.C115_coll",
    "Revision.C115_same",
    "Revision.C115_coll_same",
    "Revision.C115_big_endian",
    "Revision.C115_write",
    "Revision.C115_layouts"
   ],
   "note": ""
  },
  {
   "property": "C116",
   "status": "partial",
   "theorems": [
    "Revision.C116_taken_partial",
    "Revision.C116_taken_false",
    "Revision.C116_field",
    "Revision.C116_readers",
    "Revision.C116_readers_mut",
    "Revision.C116_slice_taken",
    "Revision.C116_slice_field",
    "Revision.C116_slice_client"
   ],
   "note": "False as stated: the contract lacks the promise that peek_bytes(n) returns n bytes (C116_taken_false; F46). Proved with that promise (C116_taken_partial), for the walkers' field bytes under the first three promises alone (C116_field), and for the crate's readers, which keep the contract (C116_readers, C116_readers_mut, C116_slice_taken, C116_slice_field)."
  },
  {
   "property": "C117",
   "status": "proved",
   "theorems": [
    "Revision.C117_alike",
    "Revision.C117_to_btree_map",
    "Revision.C117_to_btree_set",
    "Revision.C117_to_hash_map",
    "Revision.C117_to_hash_set",
    "Revision.C117_struct",
    "Revision.C117_enum",
    "Revision.C117_not_alike"
   ],
   "note": ""
  },
  {
   "property": "C118",
   "status": "proved",
   "theorems": [
    "Revision.C118_stateless",
    "Revision.C118_calls",
    "Revision.C118_few_calls",
    "Revision.C118_any_closure",
    "Revision.C118_hint",
    "Revision.C118_no_hint",
    "Revision.C118_scan",
    "Revision.C118_scan_uniform",
    "Revision.C118_find",
    "Revision.C118_find_bytes"
   ],
   "note": ""
  },
  {
   "property": "C119",
   "status": "partial",
   "theorems": [
    "Revision.C119_types_iff",
    "Revision.C119_read_partial",
    "Revision.C119_decimals",
    "Revision.C119_program_partial",
    "Revision.C119_migration_partial",
    "Revision.C119_misread_i16_false",
    "Revision.C119_misread_u16_false",
    "Revision.C119_misread_bool_false"
   ],
   "note": "False as stated for Vec<bool> and vectors of integers of two bytes and more (C119_misread_*_false; F47). Proved: the types written alike are exactly those without such a Vec (C119_types_iff); they, and programs of them, are read across the settings (C119_read_partial, C119_program_partial, C119_migration_partial)."
  },
  {
   "property": "C120",
   "status": "partial",
   "theorems": [
    "Revision.C120_recover_partial",
    "Revision.C120_recover_kind_partial",
    "Revision.C120_count_partial",
    "Revision.C120_resume_partial",
    "Revision.C120_recover_false"
   ],
   "note": "Missing: a record cut inside a Result or Bound field at a legacy revision is reported as Error::Deserialize (C120_recover_false, C120_recover_kind_partial says which records are read in any case), and the declarations C74 excludes. Skipping needs no such exception (C120_count_partial)."
  },
  {
   "property": "C121",
   "status": "proved",
   "theorems": [
    "Revision.C121_struct",
    "Revision.C121_struct_decode",
    "Revision.C121_seq",
    "Revision.C121_map_value",
    "Revision.C121_map_key",
    "Revision.C121_map_value_hint",
    "Revision.C121_map_key_hint"
   ],
   "note": ""
  },
  {
   "property": "C122",
   "status": "partial",
   "theorems": [
    "Revision.C122_width",
    "Revision.C122_struct",
    "Revision.C122_enum",
    "Revision.C122_program",
    "Revision.C122_types_iff",
    "Revision.C122_read_partial",
    "Revision.C122_refused",
    "Revision.C122_misread_false"
   ],
   "note": "The last clause is false: data written with the feature can be taken for other data by a build without it (C122_misread_false; F48). Proved: the size of every type, exactly (C122_width), of structs (C122_struct), of enums (C122_enum) and of nested programs (C122_program); the types written alike are exactly those without integers, tags and counts (C122_types_iff) and are read across the settings (C122_read_partial); data written without the feature is refused with it when its second byte is not 0 (C122_refused)."
  },
  {
   "property": "C123",
   "status": "partial",
   "theorems": [
    "Revision.C123_walk_partial",
    "Revision.C123_flat_partial",
    "Revision.C123_path_false",
    "Revision.C123_convert_false"
   ],
   "note": "Proved for every program, path, allocator and input where no PathBuf is passed over, which decodes it (C123_path_false; F50). The condition on convert functions is needed (C123_convert_false). The allocations of the user's own default functions are not counted."
  },
  {
   "property": "C124",
   "status": "partial",
   "theorems": [
    "Revision.C124_serialised_key_partial",
    "Revision.C124_text_false",
    "Revision.C124_other_key_false",
    "Revision.C124_small_false",
    "Revision.C124_stripped_false"
   ],
   "note": "Proved for the serialised key and maps of at least eight entries. The README's lookup by text finds nothing (C124_text_false) or another key's value (C124_other_key_false), stripping the length prefix does not repair it (C124_stripped_false), and below eight entries every lookup is an error instead of a scan (C124_small_false); F51."
  },
  {
   "property": "C125",
   "status": "partial",
   "theorems": [
    "Revision.C125_seq_partial",
    "Revision.C125_map_partial",
    "Revision.C125_map_safe",
    "Revision.C125_seq_safe",
    "Revision.C125_order",
    "Revision.C125_seq_order",
    "Revision.C125_bad_tag",
    "Revision.C125_boxed",
    "Revision.C125_refused_item",
    "Revision.C125_refused_walk_false",
    "Revision.C125_pair_false",
    "Revision.C125_failed_walk_false",
    "Revision.C125_dropped_walk_false"
   ],
   "note": "Proved for every session in which no entry is lost between key and value and nested walkers are used to their end (C125_seq_partial, C125_map_partial), and the absence of panics for every session on any bytes (C125_map_safe, C125_seq_safe). False otherwise: a refused walk_value, decode_pair after decode_key, a walk failing on its tag, and a dropped nested walker put the walker out of step (F52)."
  },
  {
   "property": "C126",
   "status": "partial",
   "theorems": [
    "Revision.C126_stream_partial",
    "Revision.C126_indexed_partial",
    "Revision.C126_converted_partial",
    "Revision.C126_refused",
    "Revision.C126_dropped_walk_false",
    "Revision.C126_order_false",
    "Revision.C126_indexed_walk_false"
   ],
   "note": "Proved for every session in which the fields of the data are taken in order and nested walkers are used to their end, for sequential and legacy data of any revision (C126_stream_partial) and converted data (C126_converted_partial), and for every session on data with field offsets (C126_indexed_partial). False otherwise: a sub-walker dropped early and calls out of order give other fields' bytes without notice, and walk_<field> is refused with field offsets (F53)."
  },
  {
   "property": "C127",
   "status": "partial",
   "theorems": [
    "Revision.C127_session_partial",
    "Revision.C127_position_partial",
    "Revision.C127_reader_partial",
    "Revision.C127_safe_partial",
    "Revision.C127_dropped_walk_false",
    "Revision.C127_failed_walk_false",
    "Revision.C127_counter_false"
   ],
   "note": "Proved for every session that takes the fields in order and uses nested walkers to their end (C127_session_partial), and on any bytes, whatever fails, for sessions of fewer than 2^32 calls (C127_position_partial, C127_safe_partial). False otherwise: nested walkers dropped early, walks that fail after reading a tag, and the 32-bit counter (F54)."
  },
  {
   "property": "C128",
   "status": "proved",
   "theorems": [
    "Revision.C128_struct",
    "Revision.C128_enum",
    "Revision.C128_log_struct",
    "Revision.C128_log_enum",
    "Revision.C128_salvage_unique"
   ],
   "note": ""
  },
  {
   "property": "C129",
   "status": "partial",
   "theorems": [
    "Revision.C129_map_walker",
    "Revision.C129_seq_walker",
    "Revision.C129_narrow_walker_partial",
    "Revision.C129_narrow_walker_false",
    "Revision.C129_read_map_partial",
    "Revision.C129_read_map_false",
    "Revision.C129_indexed",
    "Revision.C129_program_partial",
    "Revision.C129_program_no_maps"
   ],
   "note": "The builds differ for one declared length of indexed maps (F55), and on 32-bit machines on damaged map payloads; everywhere else they are proved alike."
  },
  {
   "property": "C130",
   "status": "partial",
   "theorems": [
    "Revision.C130_host",
    "Revision.C130_bytes",
    "Revision.C130_exchange_partial",
    "Revision.C130_types_partial",
    "Revision.C130_machine_free",
    "Revision.C130_usize",
    "Revision.C130_usize_false",
    "Revision.C130_length",
    "Revision.C130_prefix",
    "Revision.C130_bulk",
    "Revision.C130_skip_map",
    "Revision.C130_length_false",
    "Revision.C130_indexed_length",
    "Revision.C130_walker_false",
    "Revision.C130_host_walkers",
    "Revision.C130_skip",
    "Revision.C130_skip_slice",
    "Revision.C130_check_partial",
    "Revision.C130_check_program_partial",
    "Revision.C130_with_bytes",
    "Revision.C130_vec_walker",
    "Revision.C130_map_walker",
    "Revision.C130_find_bytes",
    "Revision.C130_find",
    "Revision.C130_open"
   ],
   "note": "Values the reading machine cannot hold are truncated instead of refused, and 32-bit map walkers panic on damaged payloads (F56); proved for all values it can hold."
  },
  {
   "property": "C131",
   "status": "partial",
   "theorems": [
    "Revision.C131_counts",
    "Revision.C131_counts_program",
    "Revision.C131_linear_partial",
    "Revision.C131_program_partial",
    "Revision.C131_exact",
    "Revision.C131_exact_program_partial",
    "Revision.C131_skip_optimised",
    "Revision.C131_unit_false"
   ],
   "note": "Linear for every type without collections of elements that take no bytes; for those the statement is false (F57). Counted are calls of the trait's methods and elements of vectors read in bulk, not bytes copied (C133) nor what collections do on insertion. The exact count is proved for types and for programs, except fields declared `specialised` in a build without specialised vectors (C55)."
  },
  {
   "property": "C132",
   "status": "proved",
   "theorems": [
    "Revision.C132_written",
    "Revision.C132_read",
    "Revision.C132_age",
    "Revision.C132_rewrite",
    "Revision.C132_box"
   ],
   "note": ""
  },
  {
   "property": "C133",
   "status": "proved",
   "theorems": [
    "Revision.C133_counts",
    "Revision.C133_bound",
    "Revision.C133_skip",
    "Revision.C133_layers_depth",
    "Revision.C133_layers_rank",
    "Revision.C133_plain",
    "Revision.C133_quadratic"
   ],
   "note": ""
  },
  {
   "property": "C134",
   "status": "proved",
   "theorems": [
    "Revision.C134_counts",
    "Revision.C134_bound",
    "Revision.C134_buffers_depth",
    "Revision.C134_buffers_rank",
    "Revision.C134_plain",
    "Revision.C134_record",
    "Revision.C134_elements",
    "Revision.C134_entries",
    "Revision.C134_quadratic"
   ],
   "note": ""
  },
  {
   "property": "C135",
   "status": "partial",
   "theorems": [
    "Revision.C135_in_place",
    "Revision.C135_resized",
    "Revision.C135_read_partial",
    "Revision.C135_behind",
    "Revision.C135_size",
    "Revision.C135_distinct",
    "Revision.C135_many",
    "Revision.C135_many_resized",
    "Revision.C135_many_read_partial",
    "Revision.C135_optimised_resized"
   ],
   "note": "Proved for every part that is written with the impls of its type; reading back is proved where C73 is."
  },
  {
   "property": "C136",
   "status": "proved",
   "theorems": [
    "Revision.C136_read",
    "Revision.C136_read_machine",
    "Revision.C136_skip",
    "Revision.C136_check",
    "Revision.C136_slice",
    "Revision.C136_slice_host",
    "Revision.C136_count",
    "Revision.C136_reader"
   ],
   "note": ""
  }
 ]
}