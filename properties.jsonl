{"id": "C01", "title": "Unsigned integers round-trip", "statement": "Serialising any u16/u32/u64/u128/usize and deserialising the bytes, with any bytes following them, returns the same number and leaves exactly the following bytes unread.", "quantifier": "every value of every unsigned width, every suffix, both settings of fixed-width-encoding", "why_tests_cant": "2^128 values and unbounded suffixes; tests sample boundaries", "anchors": ["src/implementations/primitives.rs::encode_u64", "src/implementations/primitives.rs::decode_u64", "src/implementations/primitives.rs::encode_u128", "src/implementations/primitives.rs::decode_u128"]}
{"id": "C02", "title": "Signed integers round-trip", "statement": "Serialising any i16/i32/i64/i128/isize and deserialising the bytes returns the same number; small magnitudes of either sign take the short encodings (|v| small => 1 byte).", "quantifier": "every value of every signed width, every suffix", "why_tests_cant": "value space too large to enumerate", "anchors": ["src/implementations/primitives.rs::zigzag_64", "src/implementations/primitives.rs::gazgiz_64", "src/implementations/primitives.rs::zigzag_128", "src/implementations/primitives.rs::gazgiz_128"]}
{"id": "C03", "title": "Encoded integer size is exact and minimal", "statement": "The variable-length encoding of n takes 1 byte below 251, 3 below 2^16, 5 below 2^32, 9 below 2^64 and 17 otherwise, and no other byte string the decoder accepts for n is shorter.", "quantifier": "every integer and every accepted alternative encoding", "why_tests_cant": "quantifies over all alternative encodings", "anchors": ["src/implementations/primitives.rs::encode_u64", "src/implementations/primitives.rs::encode_u128", "src/implementations/primitives.rs::decode_u64", "src/implementations/primitives.rs::decode_u128"]}
{"id": "C04", "title": "Narrow integers are never truncated", "statement": "Deserialising a narrow integer type from an encoding of a number outside its range returns IntegerOverflow; it never returns a different in-range number. If decoding succeeds the result is in range and equals the number on the wire.", "quantifier": "every byte string, every integer type", "why_tests_cant": "must hold on all malformed inputs", "anchors": ["src/implementations/primitives.rs::impl_revisioned_int u16/u32/i16/i32/usize"]}
{"id": "C05", "title": "Round trip for every supported type", "statement": "For every type built from the supported standard types (booleans, integers, floats, char, String, Option, Result, Bound, Box/Arc/Cow, tuples, arrays, Range, Vec, BTreeMap, BTreeSet, BinaryHeap, Duration, SystemTime) nested to any depth, deserialising the serialised bytes of a value returns the value.", "quantifier": "every type of the closure under the constructors, every value, both feature flags", "why_tests_cant": "infinitely many types and values", "anchors": ["src/lib.rs::to_vec", "src/lib.rs::from_slice", "src/implementations/*.rs"]}
{"id": "C06", "title": "Self-delimiting framing", "statement": "Deserialising consumes exactly the bytes the serialiser wrote: whatever follows is left untouched, so values written back to back are read back in order.", "quantifier": "every supported type, every value, every suffix, every list of values", "why_tests_cant": "universal over suffixes and sequences", "anchors": ["src/lib.rs::DeserializeRevisioned", "src/lib.rs::from_slice"]}
{"id": "C07", "title": "Serialised form identifies the value", "statement": "Two different values of the same type never serialise to the same bytes, and no serialised value is a proper prefix of another's.", "quantifier": "every supported type, every pair of values", "why_tests_cant": "pairs of values", "anchors": ["src/lib.rs::to_vec"]}
{"id": "C08", "title": "Skip consumes exactly what decode consumes", "statement": "Whenever deserialising succeeds on some bytes, skipping a value of that type on the same bytes succeeds and leaves the same remainder.", "quantifier": "every supported type, every byte string including non-canonical and adversarial ones", "why_tests_cant": "all byte strings", "anchors": ["src/implementations/skip.rs", "src/lib.rs::skip_slice"]}
{"id": "C09", "title": "Checked skip accepts exactly what decode accepts", "statement": "skip_check succeeds on a byte string iff deserialising does, and leaves the same remainder; plain skip may accept more.", "quantifier": "every supported type, every byte string", "why_tests_cant": "all byte strings", "anchors": ["src/lib.rs::skip_check_slice", "src/implementations/skip.rs"]}
{"id": "C10", "title": "Decoding is insensitive to what follows", "statement": "If deserialising a byte string succeeds, appending any bytes to it leaves the result unchanged and the appended bytes unread; decoding only ever consumes a prefix of its input.", "quantifier": "every supported type, every byte string, every extension", "why_tests_cant": "all byte strings and extensions", "anchors": ["src/lib.rs::DeserializeRevisioned"]}
{"id": "C11", "title": "Truncated input is always rejected", "statement": "Cutting the serialised form of a value at any point makes deserialising and skipping fail with an error; no truncated value decodes to anything.", "quantifier": "every supported type, every value, every cut point", "why_tests_cant": "all cut points of all values", "anchors": ["src/lib.rs::from_slice"]}
{"id": "C12", "title": "Decoded values are well-formed", "statement": "Every value that deserialising returns satisfies its type's invariants: in-range integers, Unicode scalar characters, valid UTF-8 strings, strictly sorted maps and sets, array lengths, NaN-free NotNan.", "quantifier": "every supported type, every byte string", "why_tests_cant": "all byte strings", "anchors": ["src/implementations/*.rs"]}
{"id": "C13", "title": "Decoding untrusted bytes does not panic", "statement": "Deserialising arbitrary bytes returns a value or an error, never a panic, apart from the allocation request for a declared length.", "quantifier": "every supported type, every byte string", "why_tests_cant": "all byte strings", "anchors": ["src/implementations/*.rs"]}
{"id": "C14", "title": "bool decoding is strict", "statement": "A boolean deserialises only from 0x00 or 0x01; any other byte is InvalidBoolValue carrying that byte.", "quantifier": "every byte", "why_tests_cant": "stated for completeness of tag handling", "anchors": ["src/implementations/primitives.rs::bool"]}
{"id": "C15", "title": "Packed boolean vectors", "statement": "A Vec<bool> takes its length prefix plus one byte per eight elements, element i is bit i mod 8 of byte i/8, and unpacking returns exactly the original sequence whatever the padding bits hold.", "quantifier": "every boolean sequence, every padding", "why_tests_cant": "all lengths", "anchors": ["src/implementations/specialised.rs::Vec<bool>"]}
{"id": "C16", "title": "Bulk numeric vectors", "statement": "A bulk-encoded Vec of fixed-width numbers is its length prefix followed by each element's little-endian bytes; it round-trips, its size is prefix + n*width, and a declared length whose byte count overflows is IntegerOverflow.", "quantifier": "every element width, every sequence, every declared length", "why_tests_cant": "all lengths and declared lengths", "anchors": ["src/implementations/specialised.rs", "src/implementations/vecs.rs"]}
{"id": "C17", "title": "Characters", "statement": "A char serialises to its UTF-8 encoding; decoding reads exactly as many bytes as the lead byte announces, accepts exactly the encodings of Unicode scalar values and rejects all others.", "quantifier": "every scalar value, every byte string", "why_tests_cant": "all 4-byte sequences and suffixes", "anchors": ["src/implementations/string.rs::char", "src/implementations/string.rs::CHAR_LENGTH"]}
{"id": "C18", "title": "Optional, Result and Bound tags", "statement": "Option/Result/Bound decode by tag and reject every tag outside their table; an accepted input decodes to the alternative its tag names.", "quantifier": "every byte string, every payload type", "why_tests_cant": "all byte strings", "anchors": ["src/implementations/option.rs", "src/implementations/result.rs", "src/implementations/bound.rs"]}
{"id": "C19", "title": "Ordered maps decode to the written mapping", "statement": "Deserialising a BTreeMap from any sequence of key/value pairs yields the mapping in which each key has the value of its last occurrence, independent of wire order; a serialised BTreeMap decodes to itself.", "quantifier": "every key type with a total order, every pair sequence", "why_tests_cant": "all sequences, all orders", "anchors": ["src/implementations/collections.rs::BTreeMap"]}
{"id": "C20", "title": "Ordered sets decode to the written set", "statement": "Deserialising a BTreeSet from any element sequence yields exactly its set of elements, strictly sorted.", "quantifier": "every element type with a total order, every sequence", "why_tests_cant": "all sequences", "anchors": ["src/implementations/collections.rs::BTreeSet"]}
{"id": "C21", "title": "Hash maps survive any iteration order", "statement": "A HashMap serialised in any iteration order deserialises to an equal map.", "quantifier": "every map, every permutation of its entries", "why_tests_cant": "iteration order is unspecified; a test sees one", "anchors": ["src/implementations/collections.rs::HashMap", "src/implementations/collections.rs::HashSet"]}
{"id": "C22", "title": "Chunked advance equals a plain skip", "statement": "Advancing a reader by n consumes exactly n bytes in bounded chunks, or fails if fewer remain.", "quantifier": "every n and every input", "why_tests_cant": "unbounded n", "anchors": ["src/slice_reader.rs::advance_read"]}
{"id": "C23", "title": "Borrowed sub-readers never read outside", "statement": "consume/sub/peek/take on a slice reader return exactly the next n bytes and move the cursor by n, or error and leave the bytes alone; consumed plus remaining is always the original slice.", "quantifier": "every sequence of reader operations", "why_tests_cant": "all operation histories", "anchors": ["src/slice_reader.rs::SliceReader", "src/slice_reader.rs::read_borrowed_bytes"]}
{"id": "C24", "title": "Length-prefixed leaf access equals decoding", "statement": "Reading the raw bytes of a String/Vec<u8>-like leaf through a walker hands out exactly the bytes decoding would have produced and leaves the reader at the same place.", "quantifier": "every byte string", "why_tests_cant": "all byte strings", "anchors": ["src/walk.rs::with_length_prefixed_bytes", "src/walk.rs::LeafWalker"]}
{"id": "C25", "title": "Option and Result walkers agree with decode", "statement": "Walking an Option/Result and decoding or skipping the payload leaves the reader where decoding the whole value would, and exposes the same alternative.", "quantifier": "every byte string", "why_tests_cant": "all byte strings", "anchors": ["src/walk.rs::OptionWalker", "src/walk.rs::ResultWalker"]}
{"id": "C26", "title": "Sequence walker agrees with decode", "statement": "Iterating a sequence walker, decoding or skipping each item in any mixture, yields the items of the decoded sequence and ends at the same position; remaining() counts down by one per item; finishing early skips the rest.", "quantifier": "every byte string, every decode/skip choice per item", "why_tests_cant": "all choice histories", "anchors": ["src/walk.rs::SeqWalker", "src/walk.rs::SeqItem"]}
{"id": "C27", "title": "Map walker iteration agrees with decode", "statement": "Iterating a map walker, decoding/skipping each key and value in any mixture, yields the entries on the wire in order and ends at the same position as decoding the map.", "quantifier": "every byte string, every choice per entry", "why_tests_cant": "all choice histories", "anchors": ["src/walk.rs::MapWalker", "src/walk.rs::MapEntry"]}
{"id": "C28", "title": "Map walker search is a correct lookup", "statement": "find on a serialised sorted map returns the value of the key iff the key is present, and otherwise None with the reader past the map.", "quantifier": "every sorted map, every probe key", "why_tests_cant": "all maps and probes", "anchors": ["src/walk.rs::MapWalker::find", "src/walk.rs::MapWalker::find_bytes"]}
{"id": "C29", "title": "Walking a bulk-encoded vector is refused before reading", "statement": "Asking for a sequence walker over a Vec whose elements are bulk encoded is an error that leaves the reader untouched; every accepted Vec is element-wise encoded.", "quantifier": "every element type, both feature settings, every input", "why_tests_cant": "feature matrix and all inputs", "anchors": ["src/implementations/walk.rs::vec_uses_bulk_encoding", "src/implementations/vecs.rs"]}
{"id": "C30", "title": "Optimised tag byte", "statement": "Building a tag from a variant id below 32 and a size class and reading it back returns both; the reserved size class is always rejected with the offending byte, and writers only ever emit tags with the reserved bit clear.", "quantifier": "all ids, classes and bytes", "why_tests_cant": "complete domain", "anchors": ["src/optimised/tag.rs"]}
{"id": "C31", "title": "Reserved tag bit is rejected", "statement": "A tag byte whose reserved bit 7 is set is rejected.", "quantifier": "every tag byte, every reader of tags", "why_tests_cant": "all inputs", "anchors": ["src/optimised/tag.rs::EXTENDED_BIT", "src/optimised/envelope.rs::read_optimised_tag", "revision-derive/src/expand/optimised/enum_codegen.rs"]}
{"id": "C32", "title": "Optimised envelopes round-trip and skip", "statement": "inline/fixed/varlen envelopes read back their body, skipping lands right after them without looking inside, a payload over u32::MAX is a Serialize error, and a declared length beyond the input is an error.", "quantifier": "every payload and suffix", "why_tests_cant": "all payloads", "anchors": ["src/optimised/envelope.rs"]}
{"id": "C33", "title": "Accepted struct offset tables are safe", "statement": "If the indexed-struct walker accepts a payload, every field access returns a slice inside the payload after the table, consecutive fields are adjacent and disjoint, and together they cover the payload from the first offset to the end.", "quantifier": "every byte string, every field count", "why_tests_cant": "all adversarial payloads", "anchors": ["src/optimised/indexed/struct_walk.rs::from_payload", "src/optimised/validation.rs::validate_struct_prologue"]}
{"id": "C34", "title": "Indexed struct access returns the right field", "statement": "For a serialised indexed struct, field i's bytes are exactly the serialised form of field i, for every i, and out-of-range i is an error.", "quantifier": "every field list with non-empty encodings and total size within u32", "why_tests_cant": "all field lists", "anchors": ["src/optimised/indexed/struct_walk.rs", "revision-derive/src/expand/optimised/struct_codegen.rs"]}
{"id": "C35", "title": "Accepted map payloads are searchable", "statement": "If the validating indexed-map walker accepts a payload, its keys are strictly ascending byte strings, every entry's key and value slices are in bounds, and lookup of a key returns the value stored with it iff the key is present.", "quantifier": "every byte string, every probe key", "why_tests_cant": "all adversarial payloads; binary search over all sizes", "anchors": ["src/optimised/indexed/map_walk.rs::from_payload", "src/optimised/indexed/map_walk.rs::find_value_bytes", "src/optimised/validation.rs::validate_map_prologue", "src/optimised/validation.rs::validate_key_region_ascending"]}
{"id": "C36", "title": "Hinted lookup equals plain lookup", "statement": "find_value_bytes_with_hint returns the same result as find_value_bytes for every hint, and the hint it hands back points at the found entry.", "quantifier": "every accepted payload, every hint, every probe", "why_tests_cant": "all hint histories", "anchors": ["src/optimised/indexed/map_walk.rs::find_value_bytes_with_hint"]}
{"id": "C37", "title": "Unvalidated walkers stay in bounds", "statement": "Walkers built without validation never read outside the payload. Map accesses return a sub-slice, nothing, or a typed error; sequence and struct accesses return a sub-slice or an error, or panic exactly when the addressed element's offsets are inverted or past the end.", "quantifier": "every byte string, every access", "why_tests_cant": "all adversarial payloads", "anchors": ["src/optimised/indexed/map_walk.rs::from_payload_unvalidated", "src/optimised/indexed/seq_walk.rs::from_payload_unvalidated", "src/optimised/indexed/struct_walk.rs::from_payload_unvalidated"]}
{"id": "C38", "title": "Walker construction does not panic", "statement": "Constructing an indexed map/seq/struct walker from arbitrary bytes returns a walker or a typed error, never a panic.", "quantifier": "every byte string", "why_tests_cant": "all adversarial payloads", "anchors": ["src/optimised/indexed/map_walk.rs::from_payload", "src/optimised/indexed/seq_walk.rs::from_payload", "src/optimised/indexed/struct_walk.rs::from_payload", "README.md"]}
{"id": "C39", "title": "Indexed map round trip", "statement": "Deserialising a serialised indexed map returns the map, below and above the indexing threshold, and leaves the following bytes unread.", "quantifier": "every map, every key/value codec satisfying the round-trip law", "why_tests_cant": "all sizes across the threshold", "anchors": ["src/optimised/indexed/serialize.rs::serialize_indexed_entries", "src/optimised/indexed/serialize.rs::deserialize_indexed_map"]}
{"id": "C40", "title": "Indexed map bytes are canonical", "statement": "The indexed encoding of a map does not depend on the iteration order of its entries.", "quantifier": "every map, every permutation", "why_tests_cant": "all permutations", "anchors": ["src/optimised/indexed/serialize.rs::serialize_indexed_entries"]}
{"id": "C41", "title": "Indexed map lookups agree with the map", "statement": "The walker over a serialised indexed map of at least 8 entries is accepted by validation, enumerates exactly the serialised entries in byte order of keys, and finds the bytes of v under the bytes of k iff the map maps k to v.", "quantifier": "every map whose regions fit u32 and whose keys and values have non-empty encodings, every probe", "why_tests_cant": "all maps", "anchors": ["src/optimised/indexed/serialize.rs", "src/optimised/indexed/map_walk.rs"]}
{"id": "C42", "title": "Indexed sequence round trip and random access", "statement": "Deserialising an indexed sequence returns it, and element_bytes(i) of its walker is exactly element i's serialised form; i out of range is an error.", "quantifier": "every sequence, every index", "why_tests_cant": "all sizes", "anchors": ["src/optimised/indexed/serialize.rs::serialize_indexed_seq_iter", "src/optimised/indexed/serialize.rs::deserialize_indexed_seq", "src/optimised/indexed/seq_walk.rs::element_bytes"]}
{"id": "C43", "title": "Indexed sets are canonical and sorted", "statement": "The indexed encoding of a set is independent of iteration order, decodes to the set, and its elements' byte forms are ascending.", "quantifier": "every set, every permutation", "why_tests_cant": "all permutations", "anchors": ["src/optimised/indexed/serialize.rs::serialize_indexed_set_iter", "src/optimised/indexed/serialize.rs::deserialize_indexed_set"]}
{"id": "C44", "title": "Skipping indexed collections lands after them", "statement": "skip_indexed_map/seq/set on a serialised collection followed by anything leaves exactly what follows.", "quantifier": "every collection, every suffix", "why_tests_cant": "all sizes across the threshold", "anchors": ["src/optimised/indexed/serialize.rs::skip_indexed_map", "src/optimised/indexed/serialize.rs::skip_indexed_seq", "src/optimised/indexed/serialize.rs::skip_indexed_set"]}
{"id": "C45", "title": "Oversized indexed collections are refused", "statement": "Encoding an indexed collection whose regions do not fit 32-bit offsets returns an error rather than wrong offsets.", "quantifier": "every collection", "why_tests_cant": "needs > 4 GiB of data", "anchors": ["src/optimised/indexed/serialize.rs::serialize_indexed_entries", "src/optimised/indexed/serialize.rs::serialize_indexed_seq_iter"]}
{"id": "C46", "title": "Revision history validation", "statement": "A declared revision history is accepted iff its revision numbers are exactly 1..=N each once (in any order); mixing both syntaxes, zero, gaps and duplicates are rejected; the accepted history is in ascending order; the options of an entry are accepted iff they name only default map and sequence encodings and an indexed struct is optimised.", "quantifier": "every list of declared entries", "why_tests_cant": "all lists", "anchors": ["revision-derive/src/ast/attributes.rs::resolve_history"]}
{"id": "C47", "title": "Lifetime windows of fields and variants", "statement": "A field or variant is part of revision r iff start <= r < end, defaults open-ended; the set of revisions in which it lives is an interval.", "quantifier": "every start/end pair and revision", "why_tests_cant": "all numbers", "anchors": ["revision-derive/src/ast/attributes.rs::exists_at"]}
{"id": "C48", "title": "Struct layout on the wire", "statement": "A revisioned struct serialises as its revision followed by the encodings of exactly its live fields in declaration order (legacy), or revision, 32-bit length and those fields (optimised), or with an offset table in front (indexed).", "quantifier": "every struct schema, every history, every value", "why_tests_cant": "all schemas", "anchors": ["revision-derive/src/expand/ser.rs", "revision-derive/src/expand/optimised/struct_codegen.rs"]}
{"id": "C49", "title": "Struct round trip at the current revision", "statement": "Deserialising a serialised revisioned struct returns it, for every encoding choice and every mix of plain/fixed/specialised/indexed fields.", "quantifier": "every schema, history and value", "why_tests_cant": "all schemas", "anchors": ["revision-derive/src/expand/ser.rs", "revision-derive/src/expand/de.rs", "revision-derive/src/expand/optimised/struct_codegen.rs"]}
{"id": "C50", "title": "Older data migrates as declared", "statement": "Data written by an older revision of the schema deserialises into the current one with surviving fields unchanged, each added field set to its default for the writer's revision, and each removed field passed to its convert function in declaration order; any default/convert error is returned.", "quantifier": "every schema, every older revision, every value, every default/convert function", "why_tests_cant": "all histories of a schema", "anchors": ["revision-derive/src/expand/de.rs", "revision-derive/src/expand/optimised/struct_codegen.rs"]}
{"id": "C51", "title": "Unknown revisions are rejected", "statement": "A header revision of 0 or beyond the current one is an error for deserialise, skip and walk, before anything else is read.", "quantifier": "every header value, every schema", "why_tests_cant": "all headers", "anchors": ["revision-derive/src/expand/mod.rs", "revision-derive/src/expand/walk.rs"]}
{"id": "C52", "title": "Enum discriminants are unambiguous", "statement": "At each revision distinct live variants have distinct discriminants, explicit overrides are honoured, and the generated name function and name tables are exactly the live variants (fields) with that assignment; conflicting overrides are refused.", "quantifier": "every enum schema, every revision", "why_tests_cant": "all schemas", "anchors": ["revision-derive/src/expand/common.rs::CalcDiscriminant", "revision-derive/src/expand/walk.rs::emit_variant_tables"]}
{"id": "C53", "title": "Enum round trip", "statement": "Deserialising a serialised revisioned enum value returns the same variant and fields; an unknown discriminant is an error.", "quantifier": "every enum schema, legacy and optimised, every value", "why_tests_cant": "all schemas", "anchors": ["revision-derive/src/expand/ser.rs", "revision-derive/src/expand/de.rs", "revision-derive/src/expand/optimised/enum_codegen.rs"]}
{"id": "C54", "title": "Older enum data migrates as declared", "statement": "A removed variant on the wire is handed with its fields to its convert function; surviving variants keep their fields, with defaults and converts applied to added and removed ones.", "quantifier": "every schema, every older revision", "why_tests_cant": "all histories", "anchors": ["revision-derive/src/expand/de.rs", "revision-derive/src/expand/optimised/enum_codegen.rs"]}
{"id": "C55", "title": "Skipping revisioned types", "statement": "Skipping a revisioned value leaves the reader where deserialising it would, for every revision in its history.", "quantifier": "every schema, every revision, every byte string decode accepts, both feature settings", "why_tests_cant": "all schemas and inputs", "anchors": ["revision-derive/src/expand/skip.rs", "revision-derive/src/expand/optimised/struct_codegen.rs", "revision-derive/src/expand/optimised/enum_codegen.rs"]}
{"id": "C56", "title": "Unknown variants do not desynchronise a skip", "statement": "Skipping an optimised enum value either fails or leaves the reader after the value; a tag that decode rejects is rejected by skip.", "quantifier": "every tag byte", "why_tests_cant": "all tags", "anchors": ["revision-derive/src/expand/optimised/enum_codegen.rs::emit_enum_skip"]}
{"id": "C57", "title": "Struct walker presents the current schema", "statement": "Decoding the fields one by one through a struct walker yields the same values as deserialising the struct, for any wire revision.", "quantifier": "every schema, every wire revision, every value", "why_tests_cant": "all schemas and histories", "anchors": ["revision-derive/src/expand/walk.rs::emit_struct_methods"]}
{"id": "C58", "title": "Indexed struct walker is random access", "statement": "On an indexed struct each decode method returns its field regardless of call order, and skips are free.", "quantifier": "every schema, value and call order", "why_tests_cant": "all call orders", "anchors": ["revision-derive/src/expand/walk.rs::emit_struct_methods"]}
{"id": "C59", "title": "Enum walker identifies the variant", "statement": "is_<variant> on a walker is true iff deserialising would give that variant, for any wire revision.", "quantifier": "every schema, every wire revision", "why_tests_cant": "all schemas", "anchors": ["revision-derive/src/expand/walk.rs::emit_enum_methods"]}
{"id": "C60", "title": "Macro-generated walkers do not panic on corrupt input", "statement": "Walking and decoding fields of arbitrary bytes returns values or typed errors, never a panic.", "quantifier": "every schema, every byte string", "why_tests_cant": "all byte strings", "anchors": ["revision-derive/src/expand/walk.rs", "README.md"]}
{"id": "C61", "title": "Byte order of integer keys", "statement": "With fixed-width-encoding, serialised integer keys compare bytewise in the same order as the integers (documented).", "quantifier": "every pair of integers", "why_tests_cant": "all pairs", "anchors": ["src/optimised/indexed/serialize.rs::IndexedMapEncoded doc"]}
{"id": "C62", "title": "Durations and times", "statement": "Duration and SystemTime round-trip; decoding carries excess nanoseconds into seconds; a pre-epoch SystemTime is a Serialize error.", "quantifier": "every duration, every byte string", "why_tests_cant": "all values", "anchors": ["src/implementations/duration.rs", "src/implementations/system_time.rs"]}
{"id": "C63", "title": "Per-field fixed encoding", "statement": "A field marked fixed takes exactly its type's width in little-endian two's complement whatever the feature flags, and round-trips for every value.", "quantifier": "every value of the six supported integer types", "why_tests_cant": "all values", "anchors": ["src/implementations/primitives.rs::fixed_le_helpers", "revision-derive/src/expand/common.rs"]}
{"id": "C64", "title": "Binary heaps", "statement": "Decoding a BinaryHeap from any bytes yields a heap holding exactly the multiset of elements on the wire, with a greatest element on top.", "quantifier": "every byte string and element type", "why_tests_cant": "all element orders and repetitions", "anchors": ["src/implementations/collections.rs::BinaryHeap"]}
{"id": "C65", "title": "Mixed traversals", "statement": "Through a serialised value of any type, any mixture of decoding, skipping and walking into sub-values, chosen independently at every depth, sees exactly the parts it decodes, in order, and leaves the reader exactly after the value; on any bytes that decode, it stops where decoding stops.", "quantifier": "every type, every value or decodable byte string, every traversal plan", "why_tests_cant": "plans and types nest without bound", "anchors": ["src/walk.rs", "src/implementations/*.rs::WalkRevisioned"]}
{"id": "C66", "title": "Generic struct and enum walkers", "statement": "A generic struct walker that decodes, skips or walks its fields in order sees what decoding them in order gives, ends at the same place and counts the fields consumed; a generic enum walker reports the discriminant and stops at the payload.", "quantifier": "every field list, every byte string", "why_tests_cant": "unbounded field lists and bytes", "anchors": ["src/walk.rs::StructWalker", "src/walk.rs::EnumWalker"]}
{"id": "C67", "title": "Streaming struct walkers", "statement": "Going through an optimised struct field by field, decoding or skipping each at will, sees exactly the current schema's values for the decoded fields and ends after the record; at any point the raw bytes of the next field are exactly its encoding, and a field the data does not have is an error.", "quantifier": "every field list, history, written value, trailing bytes and decode/skip plan", "why_tests_cant": "plans, schemas and values are unbounded", "anchors": ["revision-derive/src/expand/walk.rs::into_<field>_bytes", "revision-derive/src/expand/walk.rs::decode_<field>", "revision-derive/src/expand/walk.rs::skip_<field>"]}
{"id": "C68", "title": "Derived types never panic on corrupt input", "statement": "Deserialising, skipping or checking arbitrary bytes as a revisioned struct or enum returns a value or an error, never a panic, as long as the field types and the user's functions do not panic.", "quantifier": "every byte string, schema and history", "why_tests_cant": "the input space is all byte strings, for all schemas", "anchors": ["revision-derive/src/expand/de.rs", "revision-derive/src/expand/skip.rs", "revision-derive/src/expand/optimised"]}
{"id": "C69", "title": "Indexed collections on corrupt input", "statement": "Reading or skipping arbitrary bytes as an indexed sequence, set or map returns a value or an error, never a panic.", "quantifier": "every byte string and element type", "why_tests_cant": "the input space is all byte strings", "anchors": ["src/optimised/indexed/serialize.rs", "src/optimised/indexed/walker.rs"]}
{"id": "C70", "title": "Decoding a variant through the walker", "statement": "decode_<variant> of an enum walker gives the field of the variant if deserialising would give that variant, leaving the reader at the same place, and an error otherwise.", "quantifier": "every byte string that deserialises, every schema and history", "why_tests_cant": "all byte strings, schemas and histories", "anchors": ["revision-derive/src/expand/walk.rs::decode_<variant>"]}
{"id": "C71", "title": "The wire format of every supported type", "statement": "The bytes to_vec returns are exactly those the documented format prescribes: variable-length little-endian integers with zigzag for signed ones, a presence byte for options, a tag for results, a count before every sequence, map and string, packed booleans and raw numbers in specialised vectors. Bytes in that format are read back whoever wrote them.", "quantifier": "every type built from the supported constructors, every valid value, both feature settings", "why_tests_cant": "a golden file fixes the bytes of a few values; reader and writer can change together without any round-trip test noticing", "anchors": ["src/implementations/primitives.rs", "src/implementations/vecs.rs", "src/implementations/collections.rs", "src/lib.rs::to_vec"]}
{"id": "C72", "title": "The layouts of indexed collections and derived types", "statement": "The bytes written for indexed sequences, sets, maps and structs and for revisioned structs and enums are exactly the documented layouts: mode byte, count, little-endian offset tables from eight elements on, sorted keys, key and value regions; revision, length-prefixed payload, discriminant or tag byte.", "quantifier": "every codec of the parts, every collection, every schema and history the macro accepts", "why_tests_cant": "reader and writer can drift together; all sizes, orders and schemas", "anchors": ["src/optimised/indexed/serialize.rs", "src/optimised/envelope.rs", "revision-derive/src/expand/optimised/struct_codegen.rs", "revision-derive/src/expand/optimised/enum_codegen.rs", "revision-derive/src/expand/ser.rs"]}
{"id": "C73", "title": "Recursive and mutually recursive derived types round-trip", "statement": "If a program derives the traits for types that contain one another or themselves, through any nesting of the supported containers and with any field encoding, then every value of each of them is read back unchanged, and skipped and checked, whatever follows it, however deep the value nests. No two values of a type have the same bytes, nor does the record of one begin that of another.", "quantifier": "every program of struct and enum declarations the macro accepts, every type in it, every value of every nesting depth", "why_tests_cant": "tests fix a few types and depths; the claim is about every family of declarations and unbounded nesting", "anchors": ["revision-derive/src/expand/mod.rs", "revision-derive/src/expand/ser.rs", "revision-derive/src/expand/de.rs", "src/implementations"]}
{"id": "C74", "title": "Nested types migrate independently", "statement": "When each type of a program has its own history, data written when the types were at any combination of earlier revisions is read as the value with every nested value migrated to the current schema of its own type, from the inside out; if a conversion refuses, reading fails; skipping works either way.", "quantifier": "every program, every choice of an earlier revision for each of its types, every value of every nesting depth", "why_tests_cant": "the combinations of revisions of nested types grow exponentially, and values nest without bound", "anchors": ["revision-derive/src/expand/de.rs", "revision-derive/src/expand/skip.rs", "revision-derive/src/expand/optimised", "src/implementations"]}
{"id": "C75", "title": "chrono values come back", "statement": "Every chrono NaiveDate, NaiveTime, DateTime<Utc> and Duration that is written is read back as the same value.", "quantifier": "every value of the four types, every cargo configuration", "why_tests_cant": "the types have up to 2^93 values and the exceptions are isolated (leap seconds, negative durations)", "anchors": ["src/implementations/chrono.rs", "src/implementations/skip.rs"]}
{"id": "C76", "title": "Only calendar values are accepted as chrono types", "statement": "Numbers written for a date, a time of day, a point in time or a duration are read as the value they denote if they denote one and refused with Error::Deserialize otherwise; no input makes the readers panic.", "quantifier": "every combination of numbers in the wire types, every byte sequence", "why_tests_cant": "the space of inputs is all combinations of two to four integers", "anchors": ["src/implementations/chrono.rs"]}
{"id": "C77", "title": "Geometry comes back", "statement": "Coordinates, points, lines, polygons and collections of them that are written are read back as the same values, bit for bit; skipping stops where reading does.", "quantifier": "every value of the geo types, including those with NaN coordinates", "why_tests_cant": "values are unbounded sequences of arbitrary floats, and the exception needs a NaN in a particular place", "anchors": ["src/implementations/geo.rs", "src/implementations/skip.rs"]}
{"id": "C78", "title": "Vectors of decimals", "statement": "With specialised vectors a Vec<Decimal> has the same bytes as without, is read back unchanged, and is skipped without decoding to exactly where decoding would stop.", "quantifier": "every vector of decimals, every input", "why_tests_cant": "vectors are unbounded; two code paths must agree on all of them", "anchors": ["src/implementations/decimal.rs", "src/implementations/vecs.rs", "src/implementations/skip.rs"]}
{"id": "C79", "title": "Regular expressions and bitmaps", "statement": "A regular expression that is written is read back as the same expression and text that does not parse is refused with Error::Deserialize; bitmaps come back, and every failure of their library is reported as Serialize or Deserialize.", "quantifier": "every expression, every text, every bitmap", "why_tests_cant": "arbitrary text, and the library's errors must all be mapped", "anchors": ["src/implementations/regex.rs", "src/implementations/roaring.rs", "src/implementations/skip.rs"]}
{"id": "C80", "title": "Types of other crates inside containers", "statement": "Values of any supported container type holding values of chrono, geo, rust_decimal, regex and roaring types in any nesting come back unchanged.", "quantifier": "every nesting of the supported types over those types, every value", "why_tests_cant": "nestings are unbounded", "anchors": ["src/implementations"]}
{"id": "C81", "title": "Running out of input is told apart from corruption", "statement": "A record that was cut short is reported as Error::Io by decoding and by skipping, so that a caller who has only part of a record knows to wait for more; any other error is final: no continuation of the input makes it decode.", "quantifier": "every supported type, every value, every proper prefix of its encoding; every input and every continuation of it", "why_tests_cant": "the number of types, values, cut points and continuations is unbounded", "anchors": ["src/error.rs", "src/implementations", "src/implementations/skip.rs"]}
{"id": "C82", "title": "Reading does not depend on how the bytes arrive", "statement": "Decoding, skipping and checked skipping from any reader give the same result as from a slice holding the same bytes, however the reader splits the bytes into pieces and however often it is interrupted, and leave the reader at the same place; an error of the reader is reported as Error::Io.", "quantifier": "every supported type, every sequence of read outcomes", "why_tests_cant": "schedules of short reads and interruptions are unbounded, and the decoders use several reading primitives", "anchors": ["src/lib.rs", "src/implementations", "src/implementations/skip.rs", "src/slice_reader.rs"]}
{"id": "C83", "title": "Writing does not depend on how the bytes are taken", "statement": "Serialising into any writer either reports success, and the writer has then accepted exactly the bytes of to_vec, or reports an error, and the writer has accepted a prefix of them; a writer that makes progress never causes an error; into a fixed buffer it succeeds exactly if the encoding fits.", "quantifier": "every supported type, every value, every sequence of write outcomes, every buffer size", "why_tests_cant": "schedules of short writes, interruptions and failures are unbounded", "anchors": ["src/lib.rs", "src/implementations", "src/implementations/primitives.rs"]}
{"id": "C84", "title": "Bulk vectors on big-endian machines", "statement": "The element-wise decoder of bulk vectors compiled on big-endian machines returns the same values from the same input as the copying decoder of little-endian machines.", "quantifier": "every element type with a bulk format, every input", "why_tests_cant": "the other code path is not compiled on the machine that runs the tests", "anchors": ["src/implementations/specialised.rs"]}
{"id": "C85", "title": "Indexed containers from any bytes", "statement": "Whatever bytes an indexed map is deserialised from, in either layout, in any order and with repeated keys, each key has the value of its last occurrence and ordered maps are strictly sorted; indexed sets have exactly the elements on the wire and indexed sequences have them in wire order; the contents of the offset table play no part.", "quantifier": "every byte string, every key, value and element type", "why_tests_cant": "writers never produce such bytes; all inputs", "anchors": ["src/optimised/indexed/serialize.rs::deserialize_indexed_map", "src/optimised/indexed/serialize.rs::deserialize_indexed_seq", "src/optimised/indexed/serialize.rs::deserialize_indexed_set"]}
{"id": "C86", "title": "Variant options mean what they say", "statement": "The options of an enum variant are accepted iff no keyword is repeated, each override names exactly one revision and at most one discriminant, and an end comes with a conversion function; everything accepted is in force, including every override; the size text is accepted iff it is inline, varlen or fixed(N) with N below 256, up to white space, and means exactly that.", "quantifier": "every list of options, every string", "why_tests_cant": "all option lists and all texts", "anchors": ["revision-derive/src/ast/attributes.rs::VariantOptions::finish", "revision-derive/src/ast/attributes.rs::parse_variant_size"]}
{"id": "C87", "title": "Field attributes select the bytes", "statement": "In the record of a derived type each live field appears in the form its attributes select: fixed gives 32-, 64- and 128-bit integers as raw little-endian bytes and specialised gives the bulk form of a vector whatever the cargo feature, both only at legacy revisions; indexed_seq, indexed_set and indexed_map give the indexed form of the collection, sorted by serialised element or key, only in structs at optimised revisions; otherwise the field has its plain form. Serialisation fails only when a field fails or an optimised payload reaches 4 GiB.", "quantifier": "every history, every list of fields or variants with supported types and any attributes, every value", "why_tests_cant": "all combinations of attributes, types, revisions and values; a wrong choice still round-trips", "anchors": ["revision-derive/src/expand/ser.rs", "revision-derive/src/expand/optimised/struct_codegen.rs", "revision-derive/src/expand/optimised/enum_codegen.rs", "revision-derive/src/expand/common.rs::FIXED_SUPPORTED_INTS", "src/implementations/specialised.rs", "src/optimised/indexed/serialize.rs"]}
{"id": "C88", "title": "Field-by-field walks of legacy and converted data", "statement": "Walking a record of a legacy revision, or of an older revision whose type has conversion functions, field by field: decode and skip calls in declaration order, in any combination, see exactly the fields deserialising gives and leave the reader where deserialising does; at the next field, into_<field>_bytes gives exactly the encoding of its current value, walk_<field> runs the walker of its type exactly at its bytes in legacy data and is refused on converted data or when the field was not written, and the view of an indexed field of converted data holds exactly its indexed encoding.", "quantifier": "every history, every list of fields with lawful codecs, every value, every sequence of decode and skip calls, every continuation of the input", "why_tests_cant": "all types, revisions, values and call sequences", "anchors": ["revision-derive/src/expand/walk.rs"]}
{"id": "C89", "title": "Enum walkers hand out the payload", "statement": "At an optimised revision an enum can be walked exactly when the bytes after the header are the tag of a variant of that revision with its size class, followed by a payload of the size the class says, whatever the payload. into_<variant> of a unit variant succeeds exactly when deserialising gives that variant. For the variant deserialising gives: <variant>_view holds exactly the payload (optimised data), exactly the encoding of the converted fields (converted data) or of the one field (legacy data; refused for several fields) and leaves the reader where deserialising does; into_<variant> runs the walker of the field's type exactly at the field's bytes in legacy data and is refused on optimised and converted data. For any other variant every call is refused.", "quantifier": "every history, every accepted list of variants, every input", "why_tests_cant": "all types, all bytes", "anchors": ["revision-derive/src/expand/walk.rs::emit_optimised_enum_walker_arm", "revision-derive/src/expand/walk.rs::emit_enum_methods"]}
{"id": "C90", "title": "Derived types read the same from any reader", "statement": "Deserialising, skipping or checking a derived type, or a supported type with derived types in it, from a reader that delivers its bytes in arbitrary pieces, is interrupted arbitrarily often and finally ends or fails, gives exactly the value or error that reading from a slice of the delivered bytes gives, and after a success leaves exactly the same bytes unread.", "quantifier": "every program of mutually recursive derived types (legacy and optimised, structs and enums), every nesting depth, every reader behaviour, every input", "why_tests_cant": "all ways to cut and interrupt the input, all declarations", "anchors": ["revision-derive/src/expand/de.rs", "revision-derive/src/expand/skip.rs", "revision-derive/src/expand/optimised/struct_codegen.rs", "revision-derive/src/expand/optimised/enum_codegen.rs", "src/optimised/envelope.rs"]}
{"id": "C91", "title": "Derived types on any writer", "statement": "Serialising a value of a derived type to a writer that accepts any number of bytes per call, is interrupted, fails or fills up: if it reports success the writer has accepted exactly the bytes of to_vec, otherwise it reports an I/O error and the writer has accepted a proper prefix of them; a writer that makes progress always receives the whole record. A value that cannot be serialised is an error on every writer, and nothing of its payload has been written.", "quantifier": "every program of derived types, every value, every writer behaviour", "why_tests_cant": "all writer behaviours at every write call, all declarations and values", "anchors": ["revision-derive/src/expand/ser.rs", "revision-derive/src/expand/optimised/struct_codegen.rs::emit_struct_serialize", "revision-derive/src/expand/optimised/enum_codegen.rs::emit_enum_serialize", "src/implementations/primitives.rs"]}
{"id": "C92", "title": "Truncated derived records are reported as missing input", "statement": "Input that decodes as a derived type (or can be skipped), cut at any point inside what is consumed, is reported as Error::Io and never accepted or mistaken for corrupt data; any other error is final: more bytes do not change it; and Error::Io means that input is missing: with more bytes decoding gets past it.", "quantifier": "every program of derived types, every input, every cut, every continuation", "why_tests_cant": "all cut points of all records of all declarations", "anchors": ["revision-derive/src/expand/de.rs", "revision-derive/src/expand/skip.rs", "revision-derive/src/expand/optimised/struct_codegen.rs", "revision-derive/src/expand/optimised/enum_codegen.rs", "src/error.rs::Error"]}
{"id": "C93", "title": "Derived values survive a pipe, across versions", "statement": "A value of a derived type written to a writer that accepts a few bytes at a time, and read by the same or a newer version of the program from a reader that delivers those bytes in other pieces, followed by anything, comes back as it was (or migrated as declared, or refused if a migration refuses it), with exactly what followed left unread; it can be skipped in every case.", "quantifier": "every program of derived types and every older version of it, every value and nesting depth, every progressing writer, every reader", "why_tests_cant": "all combinations of versions, values and buffering on both sides", "anchors": ["src/lib.rs::to_vec", "src/lib.rs::from_reader", "revision-derive/src/expand/ser.rs", "revision-derive/src/expand/de.rs"]}
{"id": "C94", "title": "Memory requested for reading is bounded by the input", "statement": "Decoding an input never asks the allocator for a buffer of more elements than the input has bytes (eight times as many for packed booleans): under an allocator that grants such buffers an input gives the same result as under one that never refuses; and a refused request shows as a panic and in no other way.", "quantifier": "every supported type and every program of derived types with every attribute and revision, every input, every allocator", "why_tests_cant": "all inputs, including hostile length prefixes, at all nesting levels, under all memory limits", "anchors": ["src/implementations/vecs.rs", "src/implementations/string.rs", "src/implementations/specialised.rs", "src/implementations/collections.rs", "src/optimised/indexed/serialize.rs::deserialize_indexed_map", "src/optimised/indexed/serialize.rs::deserialize_indexed_seq"]}
{"id": "C95", "title": "Skipping requests no memory", "statement": "Skipping a value asks the allocator for nothing: whatever an allocator refuses, skipping any input gives the same result.", "quantifier": "every supported type and every program of derived types, every input, every allocator", "why_tests_cant": "all inputs, including hostile length prefixes, at all nesting levels", "anchors": ["src/implementations/skip.rs", "revision-derive/src/expand/skip.rs", "src/slice_reader.rs::advance_read"]}
{"id": "C96", "title": "Lookups in a serialised record", "statement": "A user who walks a serialised record and asks the view of an indexed collection field for a key, a position or a member — through the walker of the view, going through its body where there is no offset table — gets what the collection held, without decoding the rest of the record.", "quantifier": "every record of every derived struct at every revision, every indexed collection in it of any size, every question", "why_tests_cant": "all records, collections and questions, over three representations of walkers and two of collections", "anchors": ["src/optimised/indexed/serialize.rs::IndexedMapView", "src/optimised/indexed/serialize.rs::IndexedSeqView", "src/optimised/indexed/serialize.rs::IndexedSetView", "src/optimised/indexed/map_walk.rs", "src/optimised/indexed/seq_walk.rs", "revision-derive/src/expand/walk.rs"]}
{"id": "C97", "title": "The macro accepts exactly the definitions that make sense", "statement": "A definition is accepted, and its history is h, exactly when it says so: option lists without repetitions, one place declares the revisions 1..N in either syntax, windows lie within them, no two live variants ask for the same discriminant, an optimised revision has at most 32 sized variants with explicit discriminants below 32, fixed-width fields have a type for it wherever they are written in the legacy encoding, inline variants have no fields, and a walker that may convert has writing and reading. The macro never panics, and what the theorems on generated code presuppose holds of every accepted definition.", "quantifier": "every definition of a struct or enum: any number of fields, variants, attributes and options", "why_tests_cant": "the space of definitions is unbounded; trybuild tests fix single ones", "anchors": ["revision-derive/src/expand/mod.rs::revision", "revision-derive/src/ast/attributes.rs::ItemOptions", "revision-derive/src/ast/mod.rs", "revision-derive/src/expand/validate_version.rs", "revision-derive/src/expand/common.rs", "revision-derive/src/expand/walk.rs::emit_walk_impl"]}
{"id": "C98", "title": "What the macro emits", "statement": "An accepted definition yields the item with exactly the fields and variants of the current revision, in order, and the implementations its serialize, deserialize, skip and walk switches ask for, each once: all of them by default, skip and walk following deserialize, skip-check with skip and deserialize. The reported revision is the last one.", "quantifier": "every accepted definition", "why_tests_cant": "all definitions and combinations of switches", "anchors": ["revision-derive/src/expand/mod.rs::revision", "revision-derive/src/expand/reexport.rs::Reexport", "revision-derive/src/ast/attributes.rs::ItemOptions"]}
{"id": "C99", "title": "Whatever the macro accepts works", "statement": "If all types of a program are definitions the macro accepts, then every value of them, however the types use one another and however deep the values nest, is read back, skipped and checked as it was written, whatever follows it; and data written at any earlier revision of the types is read as its migration.", "quantifier": "every set of mutually recursive accepted definitions, every value at any depth, every assignment of revisions, every following data", "why_tests_cant": "all definitions, values and revisions at once", "anchors": ["revision-derive/src/expand/mod.rs::revision", "revision-derive/src/expand/ser.rs", "revision-derive/src/expand/de.rs", "revision-derive/src/expand/skip.rs", "src/lib.rs::SerializeRevisioned", "src/lib.rs::DeserializeRevisioned"]}
{"id": "C100", "title": "Reading recurses at most once per byte", "statement": "Reading, skipping or checking any bytes as any type of a program of mutually recursive types ends, and nests no deeper than the input has bytes: a reader that is allowed more levels does nothing else. There is no other limit on the depth.", "quantifier": "every program, every input, valid or not, every number of levels allowed", "why_tests_cant": "all inputs and all depths; a test only shows some depth at which nothing happens", "anchors": ["revision-derive/src/expand/de.rs", "revision-derive/src/expand/skip.rs", "revision-derive/src/expand/mod.rs", "src/lib.rs::DeserializeRevisioned", "src/lib.rs::SkipRevisioned"]}
{"id": "C101", "title": "Paths through serialised values", "statement": "Following a path of steps (into an option or result, to an element of a collection, to a value of a map by position or by key, to a field of a struct, into the view of an indexed field, to the field of a variant) with the walkers through a serialised value, skipping everything beside the path, arrives at exactly the part of the value the path leads to, and reports none exactly if the value has no such part; it does not matter what follows the value.", "quantifier": "every program of mutually recursive derived types, every value at any depth, every path, every following data", "why_tests_cant": "all values, paths and types at once", "anchors": ["src/walk.rs", "src/implementations/walk.rs", "revision-derive/src/expand/walk.rs", "revision-derive/src/expand/optimised/enum_codegen.rs"]}
{"id": "C102", "title": "Dates, geometry, decimals and patterns on any reader and writer", "statement": "Values of the supported types of other crates (chrono, geo, rust_decimal, regex, roaring) are decoded, skipped and checked from any reader exactly as from the bytes it delivers, however they are cut into pieces and interrupted; a value cut short is reported as an I/O error, and an I/O error means that input is missing. Written to any writer, they leave exactly the bytes of to_vec, or an I/O error and a proper prefix of them. All this holds also inside containers.", "quantifier": "every value, every input, every reader and writer: any pieces, interruptions, failures and capacities; every type built over these types", "why_tests_cant": "all schedules of partial reads and writes and all values; the tests use slices and vectors", "anchors": ["src/implementations/chrono.rs", "src/implementations/geo.rs", "src/implementations/decimal.rs", "src/implementations/regex.rs", "src/implementations/roaring.rs", "src/implementations/skip.rs"]}
{"id": "C103", "title": "Types with impls written by hand as fields of derived types", "statement": "The impls of the types of chrono, geo, rust_decimal and regex keep the contract that derived types expect of the types of their fields: what was serialised is read back, skipped and checked whatever follows it, readers report the end of the input and nothing else as an I/O error, writers use write_all, every value takes at least one byte. So they, and a user's own impls that keep it, can be fields of derived types: in a recursive, versioned enum with dates, polygons and optional decimals next to lists and maps of itself, every value comes back from any reader, data of the first revision is migrated with the dates and polygons in it unchanged, and any writer gets the record or an I/O error and a proper prefix.", "quantifier": "every type of those crates; every value of every nesting depth, every reader and writer; and, for the theorems on programs, every hand-written impl that keeps the contract", "why_tests_cant": "all values, depths, pieces of input and impls outside the crate", "anchors": ["src/lib.rs", "src/implementations/chrono.rs", "src/implementations/geo.rs", "src/implementations/decimal.rs", "src/implementations/regex.rs", "revision-derive/src/expand/ser.rs", "revision-derive/src/expand/de.rs"]}
{"id": "C104", "title": "Definitions mean what they say, token by token", "statement": "The tokens of #[revisioned(..)] and of the item below it are accepted exactly if they are a definition in the documented syntax (options separated by commas, with or without one at the end, in any number of #[revision(..)] attributes between others; numbers that fit; structs, tuples, units and enums with their visibilities and generics) that makes sense, and they are taken as that definition and no other.", "quantifier": "every list of tokens as arguments of the macro and every list of tokens as item", "why_tests_cant": "all token lists; each test compiles one definition, and rejected definitions are hardly tested", "anchors": ["revision-derive/src/ast/mod.rs", "revision-derive/src/ast/attributes.rs", "revision-derive/src/expand/mod.rs"]}
{"id": "C105", "title": "Any two versions of a program can exchange data", "statement": "During a rolling upgrade two versions of a program read each other's data. The writer may be ahead of the reader in some types and behind in others. The reader gets the writer's value with every derived value in it migrated to the reader's own revision of that type; if anywhere in the data there is a value of a type of a later revision than the reader knows, the data is refused, never misread. Skipping ends right after the data or fails, and fails only if some type is newer than the reader knows.", "quantifier": "every program of mutually recursive derived types, every pair of revisions per type for writer and reader, every value at every nesting depth, whatever bytes follow", "why_tests_cant": "all pairs of versions of all programs; tests read one version's data with one other version", "anchors": ["revision-derive/src/expand/de.rs", "revision-derive/src/expand/skip.rs", "revision-derive/src/expand/mod.rs"]}
{"id": "C106", "title": "What a program reads is a value of it, and old data can be rewritten in the current format", "statement": "Whatever bytes a program reads as one of its types, of whichever revision or corrupt, what it returns is a value of that type as declared now: a value for each field of the current revision and for no other, in a variant of the current revision, at every level of nesting. Serialising a value read this way, if it succeeds, gives bytes from which the same value is read: a store can be upgraded by reading and writing back its records, and nothing is lost.", "quantifier": "every program of mutually recursive derived types, every byte string, every value at every nesting depth, whatever bytes follow", "why_tests_cant": "ranges over all byte strings, all programs and all histories; tests migrate a few values of a few types", "anchors": ["revision-derive/src/expand/de.rs", "revision-derive/src/expand/ser.rs", "src/implementations"]}
{"id": "C107", "title": "Every value of a program can be serialised", "statement": "Serialising a value of any type of a program, however deep derived types nest in it, does not panic. It succeeds, always, if no type in the program is written in an optimised format; otherwise it may be refused, with a serialisation error and no other (a record or table of 4 GiB does not fit an optimised format).", "quantifier": "every program of mutually recursive derived types, every value at every nesting depth", "why_tests_cant": "all programs and all values; a writer that panics or fails on some value loses data when it is too late", "anchors": ["revision-derive/src/expand/ser.rs", "revision-derive/src/expand/optimised/struct_codegen.rs", "revision-derive/src/expand/optimised/enum_codegen.rs", "src/optimised/indexed/serialize.rs", "src/implementations"]}
{"id": "C108", "title": "A path through data of earlier revisions leads where it leads in the value read from it", "statement": "Following a path of fields, variants, elements, keys and options with the walkers of the current program through data that an earlier version of the program wrote, at any revision of each of its types, gives the same part as reading the whole value and following the path in it, or nothing in both: fields added since are found with their defaults, converted records are converted first, and views of indexed fields give the elements and entries of the migrated value.", "quantifier": "every program of mutually recursive derived types, every combination of earlier revisions of its types, every path, every value at every nesting depth, whatever bytes follow", "why_tests_cant": "ranges over all programs, histories, paths and values; each walker step depends on the revision found in the data at that place", "anchors": ["revision-derive/src/expand/walk.rs", "revision-derive/src/expand/optimised/struct_codegen.rs", "revision-derive/src/expand/optimised/enum_codegen.rs", "src/walk.rs", "src/implementations/walk.rs", "src/optimised/indexed"]}
{"id": "C109", "title": "A cut or damaged index is noticed, and says how", "statement": "Take a payload written for an indexed map, sequence or set of at least eight entries, or for an indexed struct, whose entries take between one byte and 4 GiB, and cut bytes off its end. The map walker refuses every such payload as too short, with or without validation. The walkers of sequences, sets and structs refuse it as too short if it is cut in the header or the table, and with an offset out of range if it is cut before the last element or field; if only bytes of the last one are missing, every other is given intact and the last as the bytes that are left. The bytes a derived walker gives for a field of an indexed struct, on whatever bytes, are those between the field's offset and the next; a table too short, or offsets out of order or past the end, are a deserialisation error.", "quantifier": "every map, sequence, set and struct, every place to cut; every payload and field for derived walkers", "why_tests_cant": "all collections times all cut points, all damaged tables", "anchors": ["src/optimised/indexed/map_walk.rs", "src/optimised/indexed/seq_walk.rs", "src/optimised/indexed/struct_walk.rs", "src/optimised/validation.rs", "revision-derive/src/expand/walk.rs"]}
{"id": "C110", "title": "A derived walker reports the revision and the variant of the data it walks", "statement": "The revision() of the walker of a derived struct or enum is the revision the data was written at. For an enum, the name that walk_revisioned_variant_name gives for the walker's revision() and discriminant() is the name of the variant that reading the data gives.", "quantifier": "every struct and enum declaration, every history, every older revision the data may carry, every input", "why_tests_cant": "the answer depends on the encodings chosen for the revision of the data and for the current one, on conversions, and on how discriminants moved between revisions: all histories times all inputs", "anchors": ["revision-derive/src/expand/walk.rs: revision, discriminant, walk_revisioned_variant_name"]}
{"id": "C111", "title": "The methods of a generated walker have different names", "statement": "For a struct or enum with a walker, the methods the macro generates for the fields or variants of the current revision (decode_x, skip_x, walk_x, into_walk_x, into_x_bytes; is_v, into_v, decode_v, v_view) and revision() and discriminant() have different names, so that what the macro accepts compiles and each method belongs to one field or variant.", "quantifier": "every list of field names and variant names and forms", "why_tests_cant": "names are arbitrary; each test fixes one definition", "anchors": ["revision-derive/src/expand/walk.rs::emit_struct_methods", "revision-derive/src/expand/walk.rs::field_method_base", "revision-derive/src/expand/walk.rs::emit_enum_methods", "revision-derive/src/expand/walk.rs::snake_case"]}
{"id": "C112", "title": "How many bytes a value takes at most, and that a small value is never refused", "statement": "The size of a serialised value is bounded by a number that can be computed from the value: its own width and a marker byte for an integer, 9 bytes for each count, 5 for each tag, 8 for the header of a derived type, 4 for each field, and for an indexed collection 9 and 8 for each element. A value whose bound is below 4 GiB is always serialised, whatever format its types are written in; what an optimised format refuses has a bound of 4 GiB or more.", "quantifier": "every program of mutually recursive derived types, every value at every nesting depth; every built-in type; both settings of each cargo feature", "why_tests_cant": "a bound on all values of all programs; the values at the limit are too big to test with", "anchors": ["src/implementations", "revision-derive/src/expand/ser.rs", "revision-derive/src/expand/optimised/struct_codegen.rs", "revision-derive/src/expand/optimised/enum_codegen.rs", "src/optimised/indexed/serialize.rs"]}
{"id": "C113", "title": "Writing back a value that was read never takes more bytes", "statement": "A value that was read can always be written again, and the bytes it is written to are no more than those it was read from, so that a store that rewrites records in place never runs out of the space they had, and no input makes it grow.", "quantifier": "every byte string that is read as a value of a built-in type, or of any type of any program of mutually recursive derived types of one revision each, at any nesting depth; both settings of each cargo feature", "why_tests_cant": "it ranges over all inputs, including those no writer produces: overlong numbers, repeated keys, leftover bytes", "anchors": ["src/implementations", "revision-derive/src/expand/de.rs", "revision-derive/src/expand/ser.rs", "revision-derive/src/expand/optimised/struct_codegen.rs", "revision-derive/src/expand/optimised/enum_codegen.rs"]}
{"id": "C114", "title": "Each value has one encoding, or one shortest encoding", "statement": "A value is read only from the bytes it is written to, so that equal values have equal bytes, records can be compared, hashed and signed as bytes, and nobody can change a record's bytes without changing its value.", "quantifier": "every byte string that is read as a value of a built-in type, or of any type of any program of mutually recursive derived types of one revision each, at any nesting depth; both settings of each cargo feature", "why_tests_cant": "it says of all byte strings that no two of them are read as the same value", "anchors": ["src/implementations/primitives.rs", "src/implementations/vecs.rs", "src/implementations/specialised.rs", "src/implementations/collections.rs", "revision-derive/src/expand/de.rs", "revision-derive/src/expand/ser.rs"]}
{"id": "C115", "title": "Vectors and collections are read and written without undefined behaviour", "statement": "The unsafe fast paths for vectors and collections never cause undefined behaviour, whatever bytes, reader, allocator or element types they meet, and what they read and write is what the safe element-by-element code would.", "quantifier": "every element type, every reader (including ones that report success without filling the buffer, or any count of bytes), every input, every allocator, both byte orders, any safe code for the elements, both settings of the bulk feature", "why_tests_cant": "undefined behaviour need not show in a run, and the claim ranges over all inputs and over readers that nobody has written yet", "anchors": ["src/implementations/vecs.rs", "src/implementations/specialised.rs", "src/implementations/uuid.rs", "src/implementations/collections.rs", "src/implementations/imbl.rs", "src/implementations/decimal.rs"]}
{"id": "C116", "title": "Bytes borrowed from a reader stay valid", "statement": "With any reader that keeps the published safety contract of borrowed readers, the bytes that are taken from it or that a walker returns for a field are valid memory, are the bytes that were unread there, and stay valid and unchanged whatever is done with the reader afterwards; the readers that come with the crate keep the contract.", "quantifier": "every implementation of the reader trait that keeps the contract, every number of bytes, every safe routine that skips a field, every later sequence of calls", "why_tests_cant": "it ranges over implementations that others will write, and a dangling reference need not show in a run", "anchors": ["src/slice_reader.rs: BorrowedReader, read_borrowed_bytes", "revision-derive/src/expand/walk.rs: walk_<field>, into_<field>_bytes", "src/optimised/envelope.rs: read_varlen_slice"]}
{"id": "C117", "title": "A type can be exchanged for a compatible one without a new revision", "statement": "Data written with one type is byte for byte what a compatible type would have written, and is read as the same value in it: T and Box/Arc/Cow<T>; an integer of two bytes or more and a wider one of the same sign (numbers of varying length); bool and u8; String, PathBuf, Bytes and Vec<u8>; NotNan and the float; Option and Vec; any collection and the list of its elements; ordered, hashed and listed maps and sets; and the same inside options, results, bounds, tuples, arrays, vectors and map values, and for the fields of derived structs and of the variants of enums. One byte and more, fixed-width numbers and specialised vectors of numbers are not compatible in this way.", "quantifier": "every chain of such exchanges, at any depth, every value, every history of a struct, whatever follows the data", "why_tests_cant": "stored data of any shape must survive an edit of a type; tests see a few types and values, and whether a change is compatible depends on value ranges and feature flags", "anchors": ["src/implementations/primitives.rs", "src/implementations/vecs.rs", "src/implementations/collections.rs", "src/implementations/option.rs", "src/implementations/imbl.rs", "src/implementations/path.rs", "src/implementations/bytes.rs", "revision-derive/src/expand/ser.rs"]}
{"id": "C118", "title": "Lookups ask the caller's closure few questions, and survive any answers", "statement": "The key lookups of walkers take a closure that may keep state. In an indexed map of fewer than 2^b entries the closure is called at most b times, once more with a hint, and exactly once when the hint is right. In an accepted map it is asked only about keys of the map and about none twice by the search; the lookup ends at the first Equal with the value of that key; however inconsistent the answers, it neither fails nor panics. The linear lookups ask about the keys in written order until an answer is not Less, and leave the reader at the value or after the map. A closure without state gets what the claims on lookups say. A scan over many maps that carries the hint from each lookup to the next finds what plain lookups find, with one call per map once the slot is learned.", "quantifier": "every payload, every map, every closure and state of it, every hint, every reader position, keys in any order", "why_tests_cant": "closures are written by callers and may count, cache or contradict themselves; the bound on the calls must hold for every size of map", "anchors": ["src/optimised/indexed/map_walk.rs: find_value_bytes, find_value_bytes_with_hint, binary_search_entry", "src/walk.rs: MapWalker::find, MapWalker::find_bytes"]}
{"id": "C119", "title": "Turning the cargo feature specialised-vectors on or off does not change what data means", "statement": "The feature is described as a performance improvement. Data written by a build of the crate with the feature and read by a build without it, or the other way round, is the same value, also when the writer was an older version of the program. (False for Vec<bool> and vectors of integers of two bytes and more, which are misread without an error; true exactly for the types without such a Vec in them, and for fields marked specialised in the legacy format or with an indexed encoding in an optimised struct.)", "quantifier": "every type and every nesting of types, every value, every program and history, either setting of fixed-width-encoding, whatever follows the data", "why_tests_cant": "a test binary is built with one setting; which types survive a change of setting is a statement about all types and values and two builds", "anchors": ["Cargo.toml: [features]", "src/implementations/vecs.rs: try_specialized", "src/implementations/decimal.rs", "src/optimised/bulk.rs", "revision-derive/src/expand/ser.rs"]}
{"id": "C120", "title": "After a crash a log gives back its complete records", "statement": "Records of a derived type are appended to a log over the life of a program, each by whatever version of it was running. If the log is cut at any byte, the current version reads exactly the complete records, each migrated to the current revision, and then stops at the first byte of the record that was cut with Error::Io; if no record was cut it reads them all and reports no error. Skipping through the log instead finds the number of complete records and the same place. When what was cut is removed and more records are appended, all are read.", "quantifier": "every derived type, every number of records, every version of the program for each of them, every byte at which the log may be cut, every continuation", "why_tests_cant": "the crash point, the number of records and the mix of versions in a log are unbounded", "anchors": ["src/lib.rs: from_slice, DeserializeRevisioned", "src/error.rs", "revision-derive/src/expand/de.rs", "src/implementations/skip.rs"]}
{"id": "C121", "title": "Damage inside one part of indexed data stays there", "statement": "When the bytes of one field of an indexed struct, one element of an indexed sequence, or one value of an indexed map are overwritten with any other bytes, the data is still accepted, every other field, element or entry reads as before, and every lookup of another key, with or without a hint, answers as before. When the bytes of a key are overwritten, either the keys still ascend, and then the map is accepted and lookups, with or without a hint, of keys other than the old and the new one answer as before, or the map is refused as not ascending.", "quantifier": "every accepted payload, every field, element, entry of it, every replacement of the same length, every key looked up, every type a field is decoded as", "why_tests_cant": "the payload, the place of the damage and the damaged bytes are unbounded", "anchors": ["src/optimised/indexed/struct_walk.rs: from_payload, field_bytes, decode_field", "src/optimised/indexed/seq_walk.rs: from_payload, element_bytes", "src/optimised/indexed/map_walk.rs: from_payload, entries, find_value_bytes", "src/optimised/validation.rs"]}
{"id": "C122", "title": "What fixed-width-encoding changes", "statement": "With the cargo feature fixed-width-encoding the size of a value is predictable from its type: for every type either all values take the same number of bytes, computable from the type and the declarations, or the type contains something of variable length (a string, a collection, an option); a derived struct adds 2 bytes, and in the optimised encoding 4 for the length and 4 for each offset; a value of a derived enum takes what its variant takes, 2 bytes for the revision and 4 for the discriminant more than the fields, or in the optimised encoding 3 more than the declared fixed size, 7 more than fields of varying length and 3 if inline. The feature changes the bytes of integers of two bytes and more, tags and counts, and of nothing else; data of other types is read by builds of either kind, and a build of one kind never takes data written by the other for other data.", "quantifier": "every type, every value, every derived struct, every program of nested structs, both settings of both cargo features", "why_tests_cant": "types nest without bound, and sizes must be the same for all values", "anchors": ["README.md: Feature Flags", "src/implementations/primitives.rs: impl_revisioned_int", "src/implementations/vecs.rs", "revision-derive/src/expand/ser.rs"]}
{"id": "C123", "title": "Following a path asks for no memory but that of what is decoded", "statement": "Walking to a part of a serialised value, through structs and enums without convert functions at any of their revisions, options, results, sequences, maps and the views of indexed fields, requests memory only for the part decoded at the end and for the keys compared on the way. What is passed over is never materialised: where the decoded types are flat, like numbers, a process whose allocator refuses every request gets the same answer as one with unlimited memory, on every input.", "quantifier": "every program of mutually recursive derived types, every path, every nesting depth, every input including hostile ones, every allocator behaviour, both settings of each cargo feature", "why_tests_cant": "it ranges over all inputs and all ways an allocator can refuse; a test observes one allocation history", "anchors": ["README.md: Walker representations, Performance", "src/walk.rs", "revision-derive/src/expand/walk.rs", "src/optimised/indexed/struct_walk.rs", "src/optimised/indexed/seq_walk.rs", "src/optimised/indexed/map_walk.rs", "src/implementations/skip.rs"]}
{"id": "C124", "title": "The lookups the documentation shows find the value", "statement": "Looking up a key in a serialised indexed map with String keys, in the ways the documentation shows, returns the bytes of the value stored under the key, and nothing if the map does not hold the key: comparing the stored key bytes with the serialised key, and (README) with the text of the key. It does so for maps of every size: below the size at which an offset table is written the walker scans.", "quantifier": "every map with distinct string keys, of any size, every key looked up, every value type", "why_tests_cant": "it ranges over all maps and all keys; the README's example is not compiled (rust,ignore)", "anchors": ["README.md: Indexed prologues, Hand-rolled impls", "src/optimised/indexed/map_walk.rs: find_value_bytes", "src/optimised/indexed/serialize.rs: serialize_indexed_map", "src/optimised/indexed/mod.rs: OFFSET_TABLE_MIN_LEN"]}
{"id": "C125", "title": "The handles of a walker may be used in any order", "statement": "However the handles of a sequence or map walker are used - items and entries offered and let go, keys and values decoded, skipped, inspected as bytes or walked into, calls in the wrong order or repeated, in any sequence - each call answers as the remaining items say, a call in the wrong order is Error::Deserialize and moves neither the reader nor the count, a failed call never puts the walker out of step with the bytes, and after a nested walker is dropped the next item is the following one. On any bytes no such call panics.", "quantifier": "every session (finite sequence of calls, misuse included), every collection type, every serialised collection, for safety every byte string", "why_tests_cant": "sessions are unbounded sequences of calls; a test follows one", "anchors": ["README.md: Limitations", "src/walk.rs: SeqWalker, SeqItem, MapWalker, MapEntry", "src/implementations/walk.rs"]}
{"id": "C126", "title": "The accessors of a derived struct walker may follow each other", "statement": "However the accessors of a derived struct walker follow each other - decode, skip, view and walk into fields, calls that are refused included - each answers for the field it is named after, with the value of the current revision; after walk_<field> the caller can keep reading the sibling fields when the sub-walker is dropped; a refused call changes nothing; and once all fields are passed the reader stands behind the record. Fields that older data does not have can be asked for at any time, and with field offsets so can all.", "quantifier": "every session (finite sequence of calls), every field list, history, revision of the data, value and trailing bytes", "why_tests_cant": "sessions, schemas and values are unbounded; a test follows one session over one struct", "anchors": ["README.md: Limitations (walk_<field>)", "revision-derive/src/expand/walk.rs: emit_struct_methods"]}
{"id": "C127", "title": "The generic struct walker keeps count", "statement": "A hand-written walker that reads a record field by field through StructWalker - decoding, skipping or walking into each with its own type, with auxiliary reads through reader() between them, walks that are refused included - sees each field's value, finds in position() the number of fields whose decode, skip or walk succeeded, whatever failed in between, and ends behind the record. Failed nested walks do not put it out of step, and the parent can resume after a nested walker is dropped. On any bytes no such session panics.", "quantifier": "every session (finite sequence of calls), every list of field types and values, trailing bytes; for position() and safety every byte string and every failure", "why_tests_cant": "sessions and field lists are unbounded, and the counter must be right after every combination of failures", "anchors": ["README.md: Limitations", "src/walk.rs: StructWalker"]}
{"id": "C128", "title": "Damage inside an optimised record stays there", "statement": "If the bytes of a record written at an optimised revision are overwritten behind its envelope (the revision and length of a struct; the revision, tag and, for varlen, length of an enum) with anything at all, skipping it with either skip function still succeeds and lands exactly behind it, and deserialising or validating it gives a result that depends on the record alone and never consumes or loses a byte of what follows. So a reader of a log of records of any versions, skipping those it cannot decode, reads every undamaged record, at its place, whatever the damaged ones hold. Of legacy records this does not hold.", "quantifier": "every schema, every optimised revision of its history, every value, every damage behind the envelope, every following bytes; every log (list of records of any revisions, each intact or damaged)", "why_tests_cant": "the damage and the bytes after it are arbitrary", "anchors": ["README.md: Optimised wire format", "revision-derive/src/expand/optimised/struct_codegen.rs", "revision-derive/src/expand/skip.rs", "revision-derive/src/expand/optimised/enum_codegen.rs"]}
{"id": "C129", "title": "Debug and release builds answer alike", "statement": "Built with or without overflow checks, a program gives the same answers: walkers over indexed sequences and maps accept the same payloads with the same result and fail alike on damaged ones, records of every type of the program are written alike, skipped alike and read alike whatever the bytes. The exceptions are exactly those lengths whose table size overflows in the reader of indexed maps, where the debug build panics and the release build goes on, and, on 32-bit machines, region lengths whose sum overflows in the map walker.", "quantifier": "every program, every type and depth, every input bytes; every payload shorter than half the address space; every width of usize from 32 bits", "why_tests_cant": "a test suite runs in one build, and the inputs that overflow are a handful among 2^64 lengths", "anchors": ["src/optimised/indexed/map_walk.rs: from_payload_inner", "src/optimised/indexed/seq_walk.rs: from_payload_inner", "src/optimised/indexed/serialize.rs: deserialize_indexed_map, skip_indexed_map"]}
{"id": "C130", "title": "Data moves between 32-bit and 64-bit machines", "statement": "What a program writes does not depend on the width of usize. A value the reading machine can hold, written on a machine of any width, is read back, skipped and checked there, followed by anything. Types without usize, isize, collections and strings are treated alike on every machine, whatever the bytes. Values the reading machine cannot hold are refused by indexed collections; elsewhere they are not: a usize is read modulo the width, and so is a length. Skips and the walkers over strings, sequences and maps agree on every machine with what reading on that machine gives, whatever the bytes: same elements, same entries found, same place at the end. The checking skip accepts there exactly what reading accepts, and skipping a slice is skipping a reader.", "quantifier": "every program, every value, every type and nesting depth, every following bytes, every input of walkers and skips, every pair of machines (reader from 32 to 64 bits)", "why_tests_cant": "the tests run on one machine; widths and values are unbounded", "anchors": ["src/implementations/primitives.rs: usize, isize", "src/implementations/vecs.rs", "src/implementations/string.rs", "src/optimised/indexed/serialize.rs: read_varint", "src/optimised/indexed/map_walk.rs: read_varint", "src/walk.rs: with_length_prefixed_bytes, SeqWalker::new, MapWalker::new, find, find_bytes"]}
{"id": "C131", "title": "Reading takes steps linear in the input", "statement": "Decoding, skipping and validating any bytes, well-formed or not, as any type make a number of calls that is at most a constant of the type plus a constant per input byte (per byte taken, if they succeed), however deep values nest. Reading a serialised value takes exactly one call for every value in it, skipping it no more, and skipping a value of a type that always was optimised one call in all. Collections of elements that take no bytes are the exception: nine bytes can make the loops run 2^64 - 1 times.", "quantifier": "every input, every type, every program of derived types, every older revision, every nesting depth, every feature set", "why_tests_cant": "inputs, types and depths are unbounded, and hostile inputs are not among those the tests write", "anchors": ["src/implementations/vecs.rs", "src/implementations/collections.rs", "src/implementations/skip.rs", "src/optimised/indexed/serialize.rs: deserialize_indexed_map, skip_indexed_map", "revision-derive/src/expand/de.rs", "revision-derive/src/expand/skip.rs", "revision-derive/src/expand/optimised/enum_codegen.rs"]}
{"id": "C132", "title": "The age of data can be told from its first bytes", "statement": "Data of a derived type begins with a u16 equal to what revision() and REVISION of the type report to the writer, so a reader that compares it with its own revision() learns whether the writer's type was older, the same or newer. Nothing that is decoded, skipped or validated begins with 0 or with a revision later than the reader's revision(), and a value written again after reading begins with the reader's. Boxes and other transparent wrappers report 1 instead, so their header matches what they report only while the type inside is at revision 1.", "quantifier": "every program of derived types, every pair of versions of it, every type, value, input and feature set", "why_tests_cant": "tests cover a few types and versions; the claim is about all histories and all inputs", "anchors": ["revision-derive/src/expand/mod.rs: revision", "src/lib.rs: Revisioned", "src/implementations/boxes.rs", "src/implementations/cow.rs"]}
{"id": "C133", "title": "Reading copies a byte at most once for each optimised record around it", "statement": "Decoding and validating copy the body of each optimised record into a buffer before reading it. On every input, well-formed or not, the bytes copied in this way are at most the bytes of the input (those taken, if reading succeeds) times the number of optimised types that nest in each other; skipping copies nothing, and neither do types without optimised revisions. If no optimised type contains itself the number depends on the types alone and the copying is linear in the input; if one does, values nested k deep are read by copying a number of bytes quadratic in k.", "quantifier": "every program of derived types, every nesting depth, every input, every revision history and feature set", "why_tests_cant": "a test times or counts one input; the bound is over all inputs, types and depths, and the quadratic case only shows in deep values", "anchors": ["revision-derive/src/expand/optimised/struct_codegen.rs: emit_struct_deserialize", "revision-derive/src/expand/optimised/enum_codegen.rs: emit_enum_deserialize", "revision-derive/src/expand/mod.rs"]}
{"id": "C134", "title": "Serialising buffers a byte at most once for each optimised record or indexed collection around it", "statement": "Serialising writes the body of each optimised record to a buffer before it goes to the caller's writer, and likewise each element, key and value of an indexed collection. A value that serialises to some bytes has at most that many bytes buffered on the way, times the number of optimised types and indexed collections that nest in each other; at least all of an optimised record but its header is buffered, and a value of types whose current revision is not optimised is written straight to the writer, with nothing buffered. If no optimised type contains itself the number depends on the types alone and the buffering is linear in the output; if one does, values nested k deep are serialised by buffering a number of bytes quadratic in k.", "quantifier": "every program of derived types, every nesting depth, every value that serialises, every revision history and feature set", "why_tests_cant": "a test measures one value; the bound is over all values, types and depths, and the quadratic case only shows in deep values", "anchors": ["revision-derive/src/expand/optimised/struct_codegen.rs: emit_struct_serialize", "revision-derive/src/expand/optimised/enum_codegen.rs: emit_enum_serialize", "src/optimised/indexed/serialize.rs: serialize_indexed_entries, serialize_indexed_seq_iter, serialize_indexed_set_iter"]}
{"id": "C135", "title": "A part of a record can be overwritten in place", "statement": "If two values differ in one part, at any depth (a field, an element of a collection, an alternative of an option or result, a field of a variant, and so on inwards), and the part takes as many bytes in both, their serialisations differ only in the bytes of that part: overwriting these bytes in the first gives the second, and reading the result gives the second value. Where no type's current revision is optimised this holds for parts of any size, the rest moving along; where one is, it does not, since the lengths and offsets before the part change. In every case, whatever the sizes and formats, as many bytes precede the part and the same bytes follow it, so the records are equal only if the part's bytes are, and the record grows or shrinks by exactly as many bytes as the part. Any number of parts can be replaced so one after the other.", "quantifier": "every program of derived types, every value that serialises, every part at every depth, every replacement and sequence of replacements, every feature set", "why_tests_cant": "a test patches one record in one place; the claim is about every part of every value of every type", "anchors": ["revision-derive/src/expand/ser.rs", "revision-derive/src/expand/optimised/struct_codegen.rs: emit_struct_serialize", "revision-derive/src/expand/optimised/enum_codegen.rs: emit_enum_serialize", "src/implementations/vecs.rs", "src/implementations/collections.rs"]}
{"id": "C136", "title": "What follows a value is not looked at, and slices are skipped as readers are", "statement": "Whatever the bytes, if reading, skipping or checking a value of a program succeeds, it has consumed a prefix of its input: followed by anything else, the same bytes give the same value and leave what follows, and cut short anywhere they give an error. Skipping in a slice leaves the same bytes, or gives the same error, as skipping from a reader over the same bytes, on machines of any width and however the reader cuts them into pieces; skip_slice answers with the number of bytes so consumed.", "quantifier": "every program of derived types with every history, every type built of them, every input, every following bytes, every cut, every reader, every machine, every feature set", "why_tests_cant": "programs, inputs, what follows them and readers are unbounded; the slice and the reader versions of skips are separate generated code", "anchors": ["src/lib.rs: skip_slice, skip_reader, skip_check_slice", "src/slice_reader.rs: consume, advance_read", "revision-derive/src/expand/skip.rs", "revision-derive/src/expand/optimised/struct_codegen.rs: emit_struct_skip", "revision-derive/src/expand/optimised/enum_codegen.rs"]}
