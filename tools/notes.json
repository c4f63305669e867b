{
 "C09": {
  "note": "Proved as an iff for every type without a bare SystemTime (C09_checked_skip_partial) and in one direction for all (C09_checked_skip_strict); false for SystemTime seconds past i64::MAX, on which decoding panics (C09_checked_skip_false)."
 },
 "C13": {
  "note": "Proved for every type without Duration and SystemTime; for those two decoding can panic (C13_no_panic_false)."
 },
 "C31": {
  "note": "False of the code: 96 bytes with bit 7 set are read as if it were clear (C31_reserved_bit_false); the exact behaviour is proved."
 },
 "C38": {
  "note": "False for three shapes of header (the _false theorems); proved that construction panics on no others. Structs: proved in full (C38_struct)."
 },
 "C45": {
  "note": "Proved for elements, keys and values below 4 GiB each; false beyond (C45_seq_false): lengths are truncated."
 },
 "C50": {
  "note": "Proved except for a new field with the name of a removed one, and removed indexed fields of optimised structs; both false of the code (the _false theorems)."
 },
 "C53": {
  "note": "Proved except for a fixed(n) variant whose payload is not n bytes, which a release build writes and cannot read (C53_fixed_size_false)."
 },
 "C54": {
  "note": "Proved except for fields added to or removed from a variant since an optimised revision (C54_optimised_fields_false)."
 },
 "C55": {
  "note": "Proved except for specialised fields without the specialised-vectors feature (C55_specialised_false)."
 },
 "C56": {
  "note": "Proved for tags of live variants; false for unknown tags and wrong size classes (C56_unknown_tag_false)."
 },
 "C57": {
  "note": "Proved in full for optimised revisions; for legacy, indexed and converted data except in the five cases shown to be false of the code."
 },
 "C58": {
  "note": "Proved except for indexed_* fields and data older than the last added field, where it is false (C57_indexed_field_false, C57_older_indexed_false)."
 },
 "C59": {
  "note": "Proved for legacy and current data, for optimised data unless discriminants moved, for converted data unless the current revision is optimised; the two exceptions are false of the code."
 },
 "C60": {
  "note": "Proved for structs without indexed revisions and for all enums; false for indexed structs (C60_indexed_false, C60_bad_offset_false)."
 },
 "C61": {
  "note": "The documented claim is false of the code (little-endian): C61_key_byte_order_false. Proved instead: reversed byte strings compare as the integers."
 },
 "C67": {
  "note": "Proved for decoding, skipping, raw bytes, walking into a field and the view of a field the data has; false for the view of an indexed field the data does not have (C67_view_false)."
 },
 "C69": {
  "note": "Proved for sequences and sets, and for maps except one declared length (C69_map_overflow_false)."
 },
 "C70": {
  "note": "Proved except for fields added since, fixed and specialised fields, moved discriminants and converted data of optimised enums; false there (the _false theorems)."
 },
 "C73": {
  "note": "Proved for all programs except declarations for which C50, C53, C54 or C55 are false (Program.Readable)."
 },
 "C74": {
  "note": "Proved for all programs except declarations for which C50, C54 or C55 are false (Program.Readable)."
 },
 "C75": {
  "note": "Dates and durations: all. Times of day and points in time with a leap second elsewhere than at the end of a minute (with_nanosecond makes them) are written and then refused on reading: C75_time_false, C75_datetime_false; all others come back."
 },
 "C77": {
  "note": "Coordinates, points, lines and collections of lines: all. Polygons: those with closed rings, which is every polygon built from rings not starting at a NaN (C77_polygon_reachable). A ring starting at a NaN grows by one coordinate on every round trip: C77_nan_false."
 },
 "C79": {
  "note": "Text that does not parse is refused, the text always comes back, bitmaps come back. An expression built with options of RegexBuilder comes back without them: C79_options_false."
 },
 "C81": {
  "note": "Error::Io by skipping for every type, by decoding for every type without Result and Bound; those report Error::Deserialize for any error inside them, so neither direction holds with them: C81_truncated_false, C81_final_false. C81_truncated_kind covers all types with the two kinds."
 },
 "C83": {
  "note": "Proved for every type that writes no single bool. bool is written with write instead of write_all and the count is ignored: C83_bool_false, C83_bool_middle_false, C83_bool_interrupted_false. On writers whose every call accepts at least a byte it holds for all types: C83_steady."
 },
 "C86": {
  "note": "Acceptance, recording and the size text are proved in full. An override is in force if no later override names the same revision: of two, the first is dropped silently (C86_override_honoured_false), and one for a revision that does not exist is never noticed (C86_override_revision_false)."
 },
 "C88": {
  "note": "Proved for fields without fixed, specialised and indexed_* in legacy data (with them the code violates it: C57_fixed_false, C57_legacy_indexed_false) and for a legacy current revision in converted data (otherwise C57_converted_false)."
 },
 "C89": {
  "note": "Missing for the reasons of C59 and C70: discriminants that moved since an optimised revision (C59_moved_discriminant_false), an optimised current revision for converted data (C59_converted_false), and fields added since or with fixed or specialised in legacy data (C70_added_field_false, C70_fixed_false)."
 },
 "C91": {
  "note": "Proved in full for types whose current encoding is optimised (bool fields included) and on writers whose every call accepts a byte. Legacy types: bool fields are excluded, with them the code violates it (C91_legacy_bool_false); and fields before the one that cannot be serialised have already been written (C91_legacy_own_error_false)."
 },
 "C92": {
  "note": "Skipping is proved in full. Decoding: Result and Bound fields at legacy revisions are excluded (C92_truncated_false); that Error::Io means missing input holds without optimised revisions, inside whose payload an overrun is also reported as end of file (C92_io_means_short_false)."
 },
 "C93": {
  "note": "Proved for the declarations of C73 and C74."
 },
 "C94": {
  "note": "Proved for every input that decodes and all types whose collections have elements of at least one byte. False for elements that take no bytes (C94_weightless_false) and for inputs that do not decode: the declared length is requested before anything is read (C94_hostile_false; C94_payload_false and C94_payload_enum_false for the 4 GiB buffers of optimised payloads, which Program.bufCodec models; C94_buffers: where those are granted it is the model used elsewhere)."
 },
 "C95": {
  "note": "Proved for all types without PathBuf, whose skip decodes it (C95_skip_false)."
 },
 "C96": {
  "note": "Proved for views of any collection and for the three representations of struct walkers. False for eight or more keys, values or elements that take no bytes (C96_weightless_false, C96_weightless_values_false); the record theorems carry the gaps of C57, C67 and C88."
 },
 "C97": {
  "note": "Both directions, for every definition as a list of attributes, names and types (C104 starts from the tokens). C97_sound needs different names of live variants (the Rust compiler refuses the emitted enum otherwise) and discriminants of 32 bits. Missing: with walk, raw identifiers (r#type) of fields and variants of the current revision, on which the macro panics (C97_raw_false; F42)."
 },
 "C98": {
  "note": "Proved for switches in the arguments of the macro; in an attribute below it, the form its documentation shows, they are accepted and ignored (C98_below_false), and serialize and deserialize may be given twice (C98_twice_false)."
 },
 "C99": {
  "note": "From the source text as written to the bytes. Assumed of the source is only what rustc checks (distinct names, u32 literals). Missing: the declarations for which C50, C53, C54 or C55 are false: removed indexed fields and changed variant fields of optimised revisions (Stable), `specialised` fields without the cargo feature (NoBulk), fixed-size fields of other sizes (valid)."
 },
 "C100": {
  "note": "Missing: programs with a convert_fn that wraps the value it gets in a further level (Program.DepthFree excludes them, as values at a fixed depth cannot be wrapped). C100_no_limit shows the bound is of the right order and that the code has no limit of its own (F37). C100_skip_depth is unconditional."
 },
 "C101": {
  "note": "Data of the current revision. Missing: fields at which the walkers misread or stop (Program.Open; the counterexamples are C29, C57_*_false, C70_fixed_false, C96_weightless_false), positions in the views of indexed maps and sets (which are in the order of the bytes, not of the value), data of earlier revisions (C108)."
 },
 "C102": {
  "note": "False of the bitmaps of roaring, whatever that library does: the impls rename every error, so a bitmap cut short and a failing reader are Error::Deserialize, a full writer is Error::Serialize (C102_bitmap_false, F38). Inside containers, writing excludes single bools (C83)."
 },
 "C104": {
  "note": "An iff for every token list, with the grammar as a relation. Missing: explicit discriminants and where clauses, which Rust's syntax has and the macro refuses (C104_discriminant_false, C104_where_false; F39, F40), and raw identifiers with walk (C97_raw_false; F42). Types, visibilities and generics are single tokens."
 },
 "C105": {
  "note": "Generalises C74, where the reader is the latest version. Missing: the declarations for which the migration of a single type is not as declared (Program.Exchanges; C50, C54, C55 are false of them). That newer data is refused, with an error, needs no such condition (C105_newer_refused)."
 },
 "C106": {
  "note": "That what is read is a value is proved for every program whose functions return what they are declared to return (Program.Typed: what the compiler checks) on a machine that grants every allocation it can address. Missing for writing back: the declarations Program.Readable and Program.Writable exclude (C53, C55 and the order of hash maps, C40)."
 },
 "C107": {
  "note": "Values of types with impls written by hand are assumed to be writable (Program.Complete)."
 },
 "C108": {
  "note": "Missing: the steps Program.OpenAt excludes because the walkers misread old data there (C57_older_indexed_false, C57_converted_false, C59_converted_false, C59_moved_discriminant_false, C70_added_field_false, and those of C101) and the declarations Program.Readable excludes."
 },
 "C109": {
  "note": ""
 },
 "C110": {
  "note": "Missing: older data with field offsets or of an optimised enum, and converted data, for which revision() is the current revision (C110_indexed_false, C110_optimised_false, C110_converted_false). In all cases it is the revision of the data or the current one (C110_struct_bounds, C110_enum_bounds)."
 },
 "C111": {
  "note": "Exact conditions, for ASCII names. Missing: fields such as walk and bytes, which both give into_walk_bytes (C111_struct_false), variants such as IsText and TextView (C111_enum_false) or FooBar and Foo_bar (C111_snake_false): the macro accepts them and the generated code does not compile (F43). For tuple structs the names always differ (C111_tuple)."
 },
 "C112": {
  "note": "Values of types with impls written by hand are bounded by a given function (Program.Bounded). The bound is not the exact size; C87 and the round trips say what is written."
 },
 "C113": {
  "note": "Missing: times with numbers of varying length, where nanoseconds carry into seconds (C113_time_false), and the indexed encodings of collections, which are read without a table of offsets and written with one (C113_indexed_false), and open polygons, which reading closes (C113_polygon_false); F44. Types of one revision each: migration may add fields."
 },
 "C114": {
  "note": "False as stated: small numbers are read in longer forms, the unused bits of Vec<bool> are ignored and sets may repeat elements (C114_number_false, C114_bits_false, C114_set_false; F45). Proved: with fixed-width numbers, plain types in the legacy format have one encoding (C114_same_*, C114_one_record_partial); with numbers of varying length the written form is the only shortest one (C114_shortest_*)."
 },
 "C116": {
  "note": "False as stated: the contract lacks the promise that peek_bytes(n) returns n bytes (C116_taken_false; F46). Proved with that promise (C116_taken_partial), for the walkers' field bytes under the first three promises alone (C116_field), and for the crate's readers, which keep the contract (C116_readers, C116_readers_mut, C116_slice_taken, C116_slice_field)."
 },
 "C119": {
  "note": "False as stated for Vec<bool> and vectors of integers of two bytes and more (C119_misread_*_false; F47). Proved: the types written alike are exactly those without such a Vec (C119_types_iff); they, and programs of them, are read across the settings (C119_read_partial, C119_program_partial, C119_migration_partial)."
 },
 "C120": {
  "note": "Missing: a record cut inside a Result or Bound field at a legacy revision is reported as Error::Deserialize (C120_recover_false, C120_recover_kind_partial says which records are read in any case), and the declarations C74 excludes. Skipping needs no such exception (C120_count_partial)."
 },
 "C122": {
  "note": "The last clause is false: data written with the feature can be taken for other data by a build without it (C122_misread_false; F48). Proved: the size of every type, exactly (C122_width), of structs (C122_struct), of enums (C122_enum) and of nested programs (C122_program); the types written alike are exactly those without integers, tags and counts (C122_types_iff) and are read across the settings (C122_read_partial); data written without the feature is refused with it when its second byte is not 0 (C122_refused)."
 },
 "C123": {
  "note": "Proved for every program, path, allocator and input where no PathBuf is passed over, which decodes it (C123_path_false; F50). The condition on convert functions is needed (C123_convert_false). The allocations of the user's own default functions are not counted."
 },
 "C124": {
  "note": "Proved for the serialised key and maps of at least eight entries. The README's lookup by text finds nothing (C124_text_false) or another key's value (C124_other_key_false), stripping the length prefix does not repair it (C124_stripped_false), and below eight entries every lookup is an error instead of a scan (C124_small_false); F51."
 },
 "C125": {
  "note": "Proved for every session in which no entry is lost between key and value and nested walkers are used to their end (C125_seq_partial, C125_map_partial), and the absence of panics for every session on any bytes (C125_map_safe, C125_seq_safe). False otherwise: a refused walk_value, decode_pair after decode_key, a walk failing on its tag, and a dropped nested walker put the walker out of step (F52)."
 },
 "C126": {
  "note": "Proved for every session in which the fields of the data are taken in order and nested walkers are used to their end, for sequential and legacy data of any revision (C126_stream_partial) and converted data (C126_converted_partial), and for every session on data with field offsets (C126_indexed_partial). False otherwise: a sub-walker dropped early and calls out of order give other fields' bytes without notice, and walk_<field> is refused with field offsets (F53)."
 },
 "C127": {
  "note": "Proved for every session that takes the fields in order and uses nested walkers to their end (C127_session_partial), and on any bytes, whatever fails, for sessions of fewer than 2^32 calls (C127_position_partial, C127_safe_partial). False otherwise: nested walkers dropped early, walks that fail after reading a tag, and the 32-bit counter (F54)."
 },
 "C129": {
  "note": "The builds differ for one declared length of indexed maps (F55), and on 32-bit machines on damaged map payloads; everywhere else they are proved alike."
 },
 "C130": {
  "note": "Values the reading machine cannot hold are truncated instead of refused, and 32-bit map walkers panic on damaged payloads (F56); proved for all values it can hold."
 },
 "C131": {
  "note": "Linear for every type without collections of elements that take no bytes; for those the statement is false (F57). Counted are calls of the trait's methods and elements of vectors read in bulk, not bytes copied (C133) nor what collections do on insertion. The exact count is proved for types and for programs, except fields declared `specialised` in a build without specialised vectors (C55)."
 },
 "C135": {
  "note": "Proved for every part that is written with the impls of its type; reading back is proved where C73 is."
 }
}