# Formal model of surrealdb/revision (v0.30.0) in Lean 4

Source under study: `/repo` (read as text only; never built or run).
Lean project: `/verif/lean`; every module is under `Verif/` and imported from `Verif.lean`.
Properties: `properties.jsonl` (C01 ...). Status and theorem names: `MANIFEST.json`.
Mutation log: `seeded/LOG.jsonl`.

Contents: 1 shape of the model, 2 modules, 3 vocabulary, 4 plan per property, 5 findings,
6 trusted base and what is not modelled, 7 testing the theorems, 8 tools.

## 1. Shape of the model

* **Bytes and readers.** A reader is a function from the unread part of a slice to a result and the new
  unread part (`Rd`). `Res` has three outcomes: `ok`, `err e` (a Rust `Err`) and `panic` (a Rust
  panic). A panic is an explicit value, so "does not panic" is a provable, or refutable, statement.
  `Model/Reader.lean` has a second, stateful reader model that keeps the reader after an error, for
  the API of `slice_reader.rs`.
* **Writers.** A writer is the list of bytes the `Vec<u8>` of `to_vec` received. (Arbitrary readers and writers: `Model/Stream`,
  `Model/Sink`, proved equal to these on slices and `Vec<u8>`.)
* **Trait impls.** A Rust type with the crate's traits is a `Codec`: `enc`, `dec`, `skip`, `skipS` (the slice
  variant), `check`, and the predicate `valid` saying which model values are inhabitants of the Rust
  type. Generic impls are functions from codecs to codecs, as in Rust.
* **Configuration.** The cargo features `fixed-width-encoding` and `specialised-vectors` are the fields of
  `Cfg`; theorems range over all four combinations unless they name one.
* **Machine.** `usize` is 64 bits. Arithmetic that can overflow is modelled with the overflow: `checked_*`
  gives an error, unchecked gives `panic` (an overflow-checking build), `as` truncates.
* **Allocation.** `Vec::with_capacity(n)` and friends are modelled by an arbitrary predicate `cap` on the
  requested length; a refused request is `panic`.
* **Type universe.** `Ty ι` is the syntax of the supported types nested to any depth, with a leaf `ext i`
  for types that bring their own impls (derived or third-party). `Ty.denote` is the type of their values,
  `Ty.codec` the impls the compiler selects. Theorems about "every supported type" are inductions over `Ty`.
* **Derive macro.** The macro maps a declaration to Rust code; the model maps a declaration to the
  meaning of that code (`structC`, `enumC`, the walkers). Field values of all types live in one type `V`, and
  the field's `Codec V` says which of them belong to the field's type; `tyField` instantiates this with `Ty`.
* **Programs.** A program is a family of derived types that use one another (`Program ι`). Values are
  stratified by nesting depth of derived types; theorems hold for every depth, and the depth is not observable (C73).

## 2. Modules

| Module | Models / contains |
|---|---|
| `Model/Base` | outcomes, `Error` kinds, `read_exact` on slices, `advance_read` (`slice_reader.rs`, `error.rs`) |
| `Model/Codec` | the traits and entry points of `lib.rs` |
| `Model/Prim` | `implementations/primitives.rs`: integers in both encodings, zigzag, bool, floats |
| `Model/Std` | `implementations/{string,option,result,bound,tuple,arrays,range,vecs,specialised,collections,bytes,path,duration,system_time,notnan,uuid,boxes,arc,cow,...}.rs`, `skip.rs` |
| `Model/Ty` | closure of those types; the `TypeId` dispatch of `Vec<T>` |
| `Model/Third` | `implementations/{chrono,geo,decimal,regex,roaring}.rs` (`imbl` is in `Std`/`Ty`) |
| `Model/ThirdIo` | the same files on arbitrary `Read` and `Write` |
| `Model/Reader` | `slice_reader.rs`: `SliceReader`, `BorrowedReader`, chunked advance |
| `Model/Walk` | `walk.rs`, `implementations/walk.rs` |
| `Model/Optimised` | `optimised/{tag,envelope,validation}.rs`, `indexed/struct_walk.rs` |
| `Model/Indexed` | `optimised/indexed/{map_walk,seq_walk,serialize}.rs` |
| `Model/BytesOrd` | `Ord` of byte slices |
| `Model/Schema` | `revision-derive/src/ast/{attributes,history}.rs`, `expand/{validate_version,common}.rs` |
| `Model/Macro` | `revision-derive/src/expand/mod.rs`, `ast/mod.rs`, `expand/reexport.rs`, the errors of the code generators |
| `Model/Parse`, `Spec/Parse` | the `Parse` impls of `revision-derive/src/ast/{mod,attributes}.rs` on token trees; the grammar |
| `Model/Derive` | `expand/{mod,ser,de,skip}.rs`, `expand/optimised/*.rs`: what the generated impls do |
| `Model/DeriveTy` | which impls a field's type and attributes select |
| `Model/DeriveWalk` | `expand/walk.rs`: the generated walkers |
| `Model/Program` | families of mutually recursive derived types, among them types with impls written by hand |
| `Model/Stream` | the decoders and skippers again, on an arbitrary `io::Read` |
| `Model/SizeText` | `parse_variant_size` of `revision-derive/src/ast/attributes.rs`, with `trim`, `strip_prefix`, `u8::from_str` of the standard library |
| `Model/Sink` | the serialisers again, on an arbitrary `io::Write` |
| `Model/Io`, `Spec/Foreign` | an impl on arbitrary readers and writers; the contract asked of impls written by hand |
| `Model/DeriveIo` | the generated impls of programs again, on arbitrary readers and writers |
| `Model/Work`, `Model/WorkDerive` | the decoders, skippers and validators again, counting calls (and, under another tariff, bytes copied into buffers) |
| `Model/Buffer` | the serialisers again, counting the bytes they write to buffers of their own |
| `Spec/*` | vocabulary of the theorems: laws of codecs, wire format, layouts, migration, user programs against walkers |
| `Proofs/*` | helper lemmas |
| `Props/*` | the property theorems `Cnn_...`, each with a non-vacuity `example` |
| `Suite/*` | the crate's own tests repeated on the model: tests of the model, no claim rests on them |

Every definition in `Model/` cites the lines of `/repo` it models and says where it simplifies.

## 3. Vocabulary

* `Rd.Framed`: what was consumed is a prefix; the result does not depend on what follows; every strict
  prefix of it is an error. `Rd.Agree`, `Rd.SameAccept`, `Rd.NoPanic`, `Rd.Yields`: see `Spec/Laws`.
* `Codec.Lawful`: the laws of a codec on *arbitrary* bytes (round trip, framing, soundness, skip follows decode).
* `Codec.Faithful`: the laws on *written* bytes only; what a field codec of a derived type must satisfy.
* `Codec.Reads o n mig` (`Spec/Nested`): data written by codec `o` is read by codec `n` as `mig` says; the law used for
  migration through nested types.
* `Wire` (`Spec/Wire`, `Spec/WireIndexed`): the byte format of every type said as a relation, without the code.
* `fieldsAsOf`, `variantsAsOf`, `Program.asOf r`: the declaration as it stood when `r` was current.
* `Stream`, `Sink` with `SameAsSlice`, `Willing`, `Steady`: arbitrary readers and writers as lists of what their next calls do.
* `migrate`, `migrateEnum`, `Program.migrate`: what the declared defaults and convert functions make of an old value.
* `Observer`, `seqVisit`, `mapVisit`, `Ty.traverse`, walker programs: arbitrary user code against the walkers.

## 4. Plan per property

"Negated" means: the property as stated is false of the code; the negation is proved on a concrete witness
(`..._false`) and what does hold is proved for all inputs (`..._partial`).

| | Modelled by | Method |
|---|---|---|
| C01, C02 | `intC` for the ten wide integer types, both encodings | case split on the tag byte; little-endian lemmas; zigzag on two's complement |
| C03 | `intC` | exact size table; minimality over every accepted byte string |
| C04 | narrow decoders | wire number specified separately (`Spec/Ints`), decode compared with it |
| C05, C06, C07, C10, C11, C12 | `Ty.codec` | `Codec.Lawful` per combinator, induction over `Ty`; lists of values for back-to-back framing |
| C08, C09 | `skip`, `check` | same induction; C09 negated for a bare `SystemTime` |
| C13 | `Ty.codec` | `NoPanic` by induction when every allocation is granted; `C13_allocation_only` for arbitrary allocators; negated for `Duration`/`SystemTime` |
| C14, C17, C18 | `boolC`, `charC`, tagged sums | accepted inputs characterised exactly; complete byte tables by `decide` |
| C15, C16 | `boolsC`, `bulkC` | bit-level and byte-level layout |
| C19, C20, C21 | sorted association lists under an arbitrary total order; hash maps as lists up to permutation | induction over the wire entries |
| C22, C23 | loop of `advance_read`; operation histories on the readers | fuel-free recursion on the remaining count; refinement to a cursor (`Spec/Cursor`) |
| C24–C29, C65, C66 | `Model/Walk` | walkers as state machines; theorems over arbitrary mixtures of decode/skip/walk, at every depth (`Ty.traverse`) |
| C30, C31, C32 | tag byte, envelopes | complete 256-byte table, lifting; C31 negated |
| C33–C38 | validators, walkers over arbitrary payloads | slice lemmas, binary-search invariant; C38 negated (zero-length indexed map; overflowing lengths) |
| C39–C45 | indexed writers and readers | sort + offset accumulation refined to the list of serialised entries; C45 negated for elements of 4 GiB |
| C46, C47, C52 | attribute handling and validation passes | accepted declarations characterised (iff); discriminant assignment by induction over variants |
| C48–C51, C55 | `structC` | layout independent of bindings; migration refined to `migrate`; C50, C55 negated in corner cases |
| C53–C56 | `enumC` | as for structs, with discriminants and tags; each negated in corner cases |
| C57, C58, C60, C67 | struct walkers | arbitrary method sequences; negated in corner cases |
| C59, C60, C70 | enum walkers | for arbitrary bytes; negated in corner cases |
| C61 | key byte order | negated (little-endian); reversed bytes proved |
| C62, C63, C64 | times, `fixed`, heaps | direct |
| C68, C69 | generated impls and indexed codecs on arbitrary bytes | `NeverPanics` per layer; C69 negated for one declared length |
| C71, C72 | wire format relation | `enc` writes it, `dec` reads it, for every type and layout |
| C75–C80 | `Model/Third` | values rebuilt from parts (`convC`); C75, C77, C79 negated in corner cases; C80 by C05 over an `Env` of these types |
| C81, C82, C84 | `Model/Stream` | decoders as programs of reads (`Prog`), run on an event list or on a slice; induction over the program; C81 negated for `Result`, `Bound` |
| C83 | `Model/Sink` | serialisers as sequences of writer calls (`Wr`), run on an event list; induction over the calls; negated for `bool` |
| C90–C93 | `Model/DeriveIo` | the generated impls again as `Prog` and `Wr`, proved equal to `structC`, `enumC` on slices (`Io.Models`), by induction on the depth of the program; C91, C92 negated in corner cases |
| C94, C95 | `Model/Ty`, `Model/Program` | a limited and an unlimited allocator side by side: the two runs are related through every combinator (`Rd.Upto`), types take at least one byte unless weightless (`Rd.Eats`); negated for hostile lengths, weightless elements, `PathBuf`. `Model/Payload` adds the buffers of optimised payloads (`Program.bufCodec`), related to `Program.codec` by the same relation and, where 4 GiB are granted, by equality (`C94_buffers`) |
| C96 | struct walkers, indexed walkers | user programs against views (`Spec/Lookup`); C41, C42, C43 composed with C58, C67, C88; short collections by induction over the entries; negated for weightless elements |
| C97 | the macro as a whole (`Model/Macro`) | a definition that makes sense (`Spec/Macro`), on the text as written; each pass as an iff, then passes as a whole; panics by following the `expect`s |
| C98 | the macro as a whole | `impls` against the switches, the re-exported item against the live parts; negated for switches below the macro and given twice |
| C99 | programs (`Model/Program`) whose declarations are the macro's own parse of a source (`Program.WrittenAs`) | `C97_sound` gives what `C73`, `C74` presuppose; what is left are names and the known gaps |
| C100 | the readers of a program at two depths, on all inputs shorter than the smaller depth (`Model/Program`) | each derived type takes at least one byte for its revision before it calls another; readers at the two depths step in parallel (`Rd.Maps`), by induction on the depth |
| C101 | a user program that follows a path with the walkers (`Spec/Path`) over `Model/Walk` and `Model/DeriveWalk`, against the path in the value | each step finds what the path finds in the value, by induction on the path, the type and the skipped fields |
| C102 | `Model/ThirdIo`: the impls of `Model/Third` again, read by read and write by write; the bitmap library is any reader program and any list of writes | the programs on a slice are the codecs, every read reports its end as `Error::Io`, all writes are `write_all`; then `C82`, `C83`; negated for bitmaps |
| C103 | `Kind.foreign`, `Body.foreign` in `Model/Program`: types of a program whose impls are written by hand, with the contract `Foreign` (`Spec/Foreign`) | each impl of `Model/Third` and `Model/ThirdIo` is shown to keep the contract; all proofs about programs have a case for such types, which the contract settles |
| C104 | the `Parse` impls of the macro (`Model/Parse`) on token trees | each parser reads exactly what the grammar (`Spec/Parse`) writes (`Parses`), composed; negated for explicit discriminants and `where` clauses |
| C105 | `Model/Program`: `P.asOf s` writes, `P.asOf r` reads (`Spec/Exchange`) | the induction of C74 with a weaker law for skipping (`Lands`); `P.asOf r` as it stood at `s i` is `P.asOf s`; unknown revisions miss every arm |
| C106 | `Model/Program`; what a value is, in `Spec/Value`, of the declarations alone | that decoding yields values, by induction over types, fields and depth (`Proofs/Value*`); values that can be encoded are `valid`, so C73 applies (`Proofs/ValueBack*`) |
| C107 | `Model/Program`; values as in C106 | by induction over types, fields and depth: every step of every serialiser succeeds on values, or is an offset or length that does not fit 32 bits (`Proofs/Write`) |
| C108 | as C101 on data of `P.asOf r`; which paths the walkers follow there: `Spec/PathOld` | each step of the current walkers on old bytes finds what the path finds in the migrated value, by induction on the path, the type and the fields (`Proofs/PathOld*`) |
| C109 | the walkers' constructors on prefixes of what `serialize_indexed_*` writes; `into_<field>_bytes` on any bytes | where a cut falls among header, table and bodies; a payload cut in the last body is the payload of a shorter last body (`Proofs/Cut`) |
| C110 | `revision()` and `discriminant()` of the derived walkers, `walk_revisioned_variant_name` | which representation `walk_revisioned` chooses for the revision in the header, on any bytes; the name table is the inverse of the numbering (C52) |
| C111 | the names of generated methods (`Model/Methods`): lists of strings, `snake_case` on characters | distinctness as an iff on the names as written: prefixes decide all but one case; `snake_case` is injective on names in the usual style |
| C112 | `Model/Program`; values as in C106; the bound in `Spec/Size`, of the value and the declarations | the induction of C107 with sizes: every number, count, table and header is at most as long as the bound says, so under 4 GiB no offset or length overflows (`Proofs/Size`) |
| C113 | `Model/Ty`, `Model/Program`; what rewriting does in `Spec/Canon` | for each impl, the bytes read are split into those of its parts and each part is written in no more bytes; collections lose entries, never gain them; payloads under 4 GiB stay under it (`Proofs/Canon`, `Proofs/CanonDerive`); two witnesses against the full statement |
| C114 | as C113 | the same induction with "the same bytes, or fewer" and "the same bytes" in place of "no more bytes"; witnesses against the full statement |
| C115 | `Model/Unsafe.lean`: the vector code again, with the memory it works on: capacity and initialised elements, layouts of the element types, an arbitrary safe `impl Read`; each `unsafe` operation has an undefined outcome where its documentation says so | an invariant of the runs ("not undefined, and what is returned satisfies P") through every operation; equality with the codec of the other properties on slices |
| C116 | `Model/Borrow.lean`: a reader with the memory of each of its states, slices as allocation, position and length, `from_raw_parts` undefined outside live allocations; safe callers as trees of method calls. `Spec/Borrow.lean`: the contract, bullet by bullet | every state after a call is reachable, so the contract gives the bytes; induction on the caller. A reader that keeps the contract as written and is undefined refutes the full statement |
| C117 | The codecs of `Model/Ty.lean` and the structs and enums of `Model/Derive.lean` as they are. `Spec/Alike.lean`: which types may be exchanged and what becomes of the values (`Alike`, `Listed`, `Retyped`) | induction on the chain of exchanges: well-formed values stay so, and the bytes are equal (a number's bytes depend only on its value, `encInt_var`); then the round trip of the new type. Sorted maps: building from distinct keys permutes. The near misses are shown by exact conditions and witnesses (`C117_not_alike`) |
| C118 | `Model/Ask.lean`: each lookup as the tree of the questions it puts to the closure (`searchAsk`, `probeAsk`, `findAsk`), run with any closure with state. `Spec/Ask.lean`: the calls that are made | the search interval halves: induction on b with fewer than 2^b candidates left; distinct positions and ascending keys give distinct questions; induction on the entries for the linear lookup; equality with the pure models of C28, C35 and C36 for a closure without state. A panic inside the closure is not modelled |
| C119 | no new model: the codecs at `⟨fw, true⟩` and `⟨fw, false⟩`. `Spec/Features.lean`: the types, fields and programs without a `Vec` that the feature has another format for (`Ty.steady`, `Program.Steady`) | equality of the two encoders by induction on the type, the fields and the nesting of the program; for every other type a value is built, by induction, on which they differ; C74 for reading. The full statement is false (F47); the four optional crates' types other than `Decimal` do not mention the feature |
| C120 | no new model. `Spec/Log.lean`: a log as the concatenation of what versions of a program wrote, and the loop that reads it (`ReadsLog`) | induction on the records, with C74 for a complete record and C92 for a cut one; a record is never empty as it starts with its revision. Partial as C74 and C92 are: a cut `Result` or `Bound` at a legacy revision is reported as `Error::Deserialize` (`C92_truncated_false`, `C120_recover_false`) |
| C121 | no new model | the head of an accepted payload decides how it is read (`seq_head`, `map_head` in `Proofs/Damage.lean`, for any accepted payload, canonical or not); slices clear of the damaged stretch are the same; the map's key check and lookups by C35, hinted ones by C36. For map payloads below 2^63 bytes, as C35 |
| C122 | no new model: the codecs at `⟨true, sp⟩` and `⟨false, sp⟩`. `Spec/Width.lean`: the size of each type (`Ty.width`), what a struct adds (`structOverhead`), what an enum takes (`variantBytes`), sizes of a program's types (`Program.Widths`), the types without integers, tags and counts (`Ty.widthFree`) | induction on the type, in both directions: for a type without a size two values of different sizes are built; structs by C48; enums by the layout of C53; programs by induction on the nesting (an enum has a size if all its variants have the same; `none` claims nothing); data read by the other kind of build by the round trip. The last clause is false (F48) |
| C123 | no new model: walkers (`Model/Walk`, `Model/DeriveWalk`) followed along paths (`Spec/Path`), where decoders ask `Impls.cap` for memory. `Spec/WalkAlloc.lean`: paths on which only values of given types are decoded (`Program.Sparing`), types read without a request (`Ty.flat`) | skipping is independent of the allocator (C95), so each step is; induction on the path. A walker of a type without convert functions never holds a converted value (`StructRepr.Direct`) |
| C124 | no new model: the indexed-map writer and walker of C41 (`Model/Indexed`), keys by `stringC` | C41's characterisation of searches for arbitrary bytes, and the form of a string's length prefix |
| C125 | `Model/Session.lean`: `SeqWalker`, `MapWalker` and their handles together with the reader, as state machines that go on after a failed call; where a failed decode leaves the reader is an arbitrary function. `Spec/Session.lean`: the same calls on a list of items | simulation of the state machine by the list, by induction on the session; for safety, the invariant that an entry is in use only while the count is positive |
| C126 | `Model/StructSession.lean`: the borrowing methods of a generated struct walker with the reader, going on after failed calls. `Spec/StructSession.lean`: the same calls on the value of the current revision and the numbers of the fields still ahead | simulation by induction on the session for sequential, legacy and converted data; statelessness for data with field offsets; negated for sub-walkers dropped early, calls out of order, and walking with field offsets |
| C127 | `Model/GenericSession.lean`: the borrowing methods of `StructWalker` with the reader and the 32-bit counter, going on after failed calls. `Spec/GenericSession.lean`: a session as the list of fields it takes, their concatenated encodings, and the count of successful answers | induction on the session; the counter by an invariant on any bytes; negated for nested walkers dropped early, walks failing after a tag, and 2^32 fields |
| C128 | no new model. `Spec/Contained.lean`: damage behind the envelope of a record (`DamagedAfter`), readers whose result depends on the record alone (`Rd.Contained`), and the loop that skips records it cannot decode (`Salvages`) | from the layout (C48, C53): the length read is that of the record, and decoding happens inside it; logs by induction on the records, with C50 and C54 for the intact ones and C68 against panics |
| C129 | `Model/Machine.lean`: everything that computes with `usize`, over the width of `usize` and whether overflow is checked: lengths, collections, indexed collections, their walkers, the impls of whole programs | walkers by cases on which sum overflows; programs by relating the readers of the two builds field by field (`Rd.Upto`) and by equality where no indexed map occurs |
| C130 | the same model; `C130_host` proves that at 64 bits with checks it is the model of all other properties | encoders do not mention the machine (`program_enc`); readers by induction on types and nesting depth, as C73 (`program_faithful`); `usize` and length prefixes read as their value modulo the width. Walkers over strings, sequences and maps (`Model/MachineWalker.lean`): skips and checks agree with reads by induction on types (`codec_agree`, `codec_checks`, `program_checks`, `codec_skipS`), the loops of the walkers by the lemmas of C26 to C28, borrowed bytes by moving the input behind the length as this machine reads it (`prefixed_moved`) |
| C131 | `Model/Work`, `Model/WorkDerive`: the readers of types and programs once more, counting calls; erasing the counts gives the readers (`C131_counts`, `C131_counts_program`) | an invariant on every reader: steps plus what the bytes left would pay stay within what the input pays (`Ct.Costs`), for loops of any length from elements that leave part of their pay unused; programs by induction on the nesting depth. Exactness by induction on types (`C131_exact`) and on the nesting depth of programs (`C131_exact_program_partial`) |
| C132 | `Model/Revision`: `revision()` of derived and of supported types | every derived serialiser begins with the latest revision of the history (`Body.enc_revision`), every reader with the dispatch on it, and versions of a program are prefixes of its histories |
| C133 | `Model/Work`, `Model/WorkDerive` under the tariff `Tariff.copies`: the same counted readers, counting the bytes copied into the buffers of optimised records instead of calls. A `read_exact` that fails counts as nothing copied | a closure principle for readers built from readers (`Ct.Closed`), a lemma for buffers whose contents are read at one less per byte (`Ct.Costs.buffer`), induction on the nesting depth; the quadratic case by evaluating the reader on a chain of any length |
| C134 | `Model/Buffer`: the serialisers of types and programs once more, counting the bytes written to buffers other than the caller's writer; erasing the counts gives the serialisers (`C134_counts`). Not counted: the packed bits of a `Vec<bool>`, serialisations that fail, impls written by hand | a predicate that a serialiser counts at most `L` per byte it gives (`Bf.Costs`), with a lemma for each combinator and one for buffers (`L` to `L + 1`), induction on the nesting depth; the quadratic case by evaluating the serialiser on a chain of any length |
| C135 | nothing new; `Spec/Patch` says when two values of a program differ in one part. Parts of a field are covered where the field is written with the impls of its type, and in `indexed_seq` and `indexed_map` fields of optimised structs for elements and for the values of entries. Replaced only as a whole are keys of indexed maps and elements of indexed sets (their bytes decide the order), `fixed`/`specialised` fields of the legacy format and vectors written in bulk; not covered are `inline` variants, which have no fields on the wire | a relation between two serialisers (`Spliced`: same bytes but for the part), a lemma for each layout (offset tables and lengths depend on the sizes only; where an entry of a map is sorted to does not depend on its value), induction on the relation and the depth; for parts of any size a second relation (`Shifted`: as many bytes before the part, the same after it) in the same way; the optimised case with other sizes by a witness (`C135_optimised_resized`); several replacements by induction on their list (`Program.Edited`) |
| C136 | nothing new | every reader of a program is a `Prog` run on a slice (`Program.io_models`, C90), and these consume a prefix and depend on nothing else (`Prog.framed`, by induction on the `Prog`); skips of slices equal skips of readers by induction on types and nesting depth (`codec_skipS`, `program_skipS`), on every machine; reads on other machines by the same induction (`program_framed`); hand-written impls by an assumption of `Foreign` |
| C86 | `VariantOptions`, `parse_variant_size` (`Model/SizeText`, over lists of characters) | accumulated state of the loop; texts as a relation (`Spec/SchemaVariant`); negated for repeated overrides |
| C89 | enum walkers | tag and payload as a relation (`Spec/WalkEnum`), walk succeeds iff; each method on arbitrary bytes |
| C88 | struct walkers | the same calls on legacy and converted data |
| C87 | `tyField` in `structC`, `enumC` | the form each attribute selects as a relation (`Spec/WireField`); `enc` succeeds with exactly those bytes |
| C85 | indexed decoders on arbitrary bytes | entries on the wire as a relation (`Spec/Entries`); insertion invariants |
| C73, C74 | `Program` | induction on depth; `Body.reads` lifts `Codec.Reads` from field types to derived types; the depth the reader follows is independent of that of the value: `Values.lift`, `Program.lifts` (C73), `Program.reads` for `n ≤ m` (C74) |

No property of the list is "not applicable".

## 5. Findings

What the code does against its documentation or against a property. Each has a machine-checked witness.

| | Theorem | What happens |
|---|---|---|
| F1 | `C13_no_panic_false` | decoding a `Duration` whose nanoseconds carry past `u64::MAX` seconds panics (`Duration::new`) |
| F2 | `C38_empty_indexed_map_false` | the validating map walker panics on an indexed header with length 0 |
| F3 | `C38_map_overflow_false`, `C69_map_overflow_false` | table size of an untrusted length overflows `usize` |
| F4 | `C45_seq_false` | elements of 4 GiB have their length truncated by `as u32`; offsets come out wrong instead of an error |
| F5 | `C31_reserved_bit_false` | the reserved bit 7 of a tag byte is not rejected |
| F6 | `C34_validated_iff` | the validator refuses the table the writer produces when a field other than the last serialises to no bytes |
| F7 | `C55_specialised_false` | without `specialised-vectors`, a `specialised` field is skipped as if it were not written in bulk |
| F8 | `C09_checked_skip_false` | checked skip of `SystemTime` accepts seconds on which decoding panics |
| F9 | – | minor: non-minimal varints are accepted on reading (`C03_minimal` states only that none is shorter); `skip` accepts more than `decode` (documented) |
| F10 | `C57_fixed_false` | the walker of a legacy struct ignores `fixed` |
| F11 | `C57_legacy_indexed_false` | the walker of a legacy struct reads a plain field as indexed |
| F12 | `C57_indexed_field_false` | the walker of an indexed struct reads an indexed field as plain |
| F13 | `C57_older_indexed_false` | the walker of an indexed struct panics on valid older data |
| F14 | `C57_converted_false`, `C59_converted_false` | after conversion the walker takes the optimised envelope for field data |
| F15 | `C50_removed_indexed_false` | a removed indexed field is decoded as plain |
| F16 | `C59_moved_discriminant_false` | the enum walker compares an old optimised discriminant with current ones |
| F17 | `C67_view_false` | the view of an indexed field missing from old data shows the bytes after the record |
| F18 | `C60_indexed_false`, `C60_bad_offset_false` | the walker of an indexed struct panics on corrupt tables |
| F19 | `C56_unknown_tag_false` | skip accepts tags decode rejects, and may stop in the middle |
| F20 | `C53_fixed_size_false` | a `fixed(n)` variant with another payload size is written but cannot be read |
| F21 | `C61_key_byte_order_false` | fixed-width keys are little-endian, so byte order is not numeric order |
| F22 | `C54_optimised_fields_false` | optimised enums neither default nor convert fields of surviving variants |
| F23 | `C50_shadowing_false` | a new field with the name of a removed one shadows it in the convert call |
| F24 | `C70_added_field_false`, `C70_fixed_false` | `decode_<variant>` reads a field the data does not have, and ignores `fixed` |
| F25 | `C75_time_false`, `C75_datetime_false` | a chrono time with a leap second inside a minute is written, and refused on reading |
| F26 | `C77_nan_false` | a polygon ring starting at a NaN gains a coordinate on every round trip |
| F27 | `C79_options_false` | a `Regex` loses the options of its builder |
| F28 | `C81_truncated_false`, `C81_final_false` | inside `Result` and `Bound`, end of input is reported as `Error::Deserialize`, like corruption |
| F29 | `C83_bool_false`, `C83_bool_middle_false`, `C83_bool_interrupted_false` | `bool` is serialised with `write` instead of `write_all`: a full buffer loses the byte with `Ok`, an interruption is an error |
| F30 | `C86_override_honoured_false`, `C86_override_revision_false` | two `override`s of a variant for one revision are accepted and the first is dropped; an `override` for a revision beyond the history is accepted and does nothing |
| F31 | `C92_io_means_short_false` | a field that overruns the payload of an optimised struct is reported as `Error::Io` (end of file), although no further input helps |
| F32 | `C91_legacy_own_error_false` | a legacy struct with a field that cannot be serialised leaves the fields before it in the writer |
| F33 | `C94_hostile_false`, `C94_weightless_false` | a declared length is passed to `with_capacity` before anything is read: nine bytes make decoding panic with `capacity overflow`, or abort; and nine bytes are a valid `Vec<()>` of 2^64-1 elements, read and skipped one by one |
| F34 | `C95_skip_false` | skipping a `PathBuf` decodes it: a hostile length makes skipping panic, unlike `String` |
| F35 | `C96_weightless_false`, `C96_weightless_values_false` | a view of eight or more elements, or map values, that take no bytes (`()`) cannot be opened: the writer gives them equal offsets, the validator wants them ascending |
| F36 | `C98_below_false`, `C98_twice_false` | `#[revision(serialize = false)]` below the macro, the form documented in `revision-derive/src/lib.rs:66`, is parsed and ignored: only the switches in the macro's own arguments count. `serialize` and `deserialize` given twice are accepted, the last one counts; `skip` and `walk` given twice are refused |
| F37 | `C100_no_limit` | the readers have no limit on nesting: a record of `3k` bytes of a recursive type (`Node([Node([…])])`) makes the reader recurse `k` deep, so a few hundred kilobytes of hostile input exhaust the stack, which aborts the process |
| F38 | `C102_bitmap_false` | the impls of `RoaringBitmap` and `RoaringTreemap` turn I/O errors into `Error::Deserialize` and `Error::Serialize`: a caller cannot tell a short read or a full disk from corrupt data |
| F39 | `C104_discriminant_false` | an enum with explicit discriminants, `A = 1`, is refused with "expected `,`": the parser has a place for them but looks for `:` instead of `=` (`ast/mod.rs:126-130`) |
| F40 | `C104_where_false` | a definition with a `where` clause is refused: `Generics::parse` of `syn` does not read it and nothing else does |
| F41 | `C110_indexed_false`, `C110_optimised_false`, `C110_converted_false` | `revision()`, documented as the wire revision of the value being walked, is the current revision for older data with field offsets, for older data of an optimised enum and for converted data; with it and `discriminant()`, `walk_revisioned_variant_name` names another variant, or none |
| F42 | `C97_raw_false` | with `walk`, a raw identifier (`r#type`) as name of a field or variant makes the macro panic: method names are built by `format_ident!("decode_{}", ident.to_string())`, and `decode_r#type` is no identifier; without `walk` the same definition is accepted |
| F43 | `C111_struct_false`, `C111_enum_false`, `C111_snake_false` | the methods of a generated walker can clash: fields `walk` and `bytes` (or `walk_x` and `x_bytes`) both give `into_walk_bytes`, variants `IsText { .. }` and `TextView` both give `is_text_view`, variants `FooBar` and `Foo_bar` share all their methods; the macro accepts these and the compiler refuses the result |
| F44 | `C113_time_false`, `C113_indexed_false`, `C113_polygon_false` | a record can grow when it is read and written again: a `Duration` with 1,000,000,000 nanoseconds or more is accepted and normalised, its seconds then taking a longer varint; an indexed collection of eight or more elements is accepted without a table of offsets and written with one; a polygon with an open ring is closed by reading it |
| F45 | `C114_number_false`, `C114_bits_false`, `C114_set_false` | encodings are malleable: overlong varints, the padding bits of a bulk `Vec<bool>` and repeated or unordered keys are accepted without notice, so different bytes are read as the same value |
| F46 | `C116_taken_false` | the safety contract of `BorrowedReader` does not ask that `peek_bytes(n)` return `n` bytes (only the comment on the method says so), but `read_borrowed_bytes` makes a slice of `n` bytes of whatever pointer it got: a reader that keeps all four promises and peeks at fewer bytes leads to undefined behaviour. Using the peeked slice's own length would do without the promise |
| F47 | `C119_misread_i16_false`, `C119_misread_u16_false`, `C119_misread_bool_false` | the README's list of features presents `specialised-vectors` as a performance improvement only, but it changes the wire format of `Vec<bool>` and of vectors of integers of two bytes and more, with nothing in the data to tell: `vec![1i16]` written with the feature is read as `vec![-1]` without it. Cargo unifies features, so another crate in the build can switch it on |
| F48 | `C122_misread_false` | data written with `fixed-width-encoding` is taken by a build without it for other data: `Rgb { r: 7, g: 8, b: 9 }` is `[1, 0, 7, 8, 9]` and is read as `Rgb { r: 0, g: 7, b: 8 }`. The other way round the second byte usually gives it away (`C122_refused`). The README presents the feature as a trade-off between size and speed; as with F47, Cargo unifies features |
| F49 | `C94_payload_false`, `C94_payload_enum_false` | decoding an optimised struct, or an enum variant of varying length, allocates and zeroes the buffer its length prefix asks for before it reads any of it: five bytes cost 4 GiB. Nothing of it is needed: skipping and walking take the payload from the input |
| F50 | `C123_path_false` | walking past a `PathBuf` field decodes it, so asks for as much memory as its length says (the consequence of C95's `PathBuf` skip for walkers); the README calls walking allocation-free for types without `convert_fn`. With a `convert_fn`, documented to cost a round trip, it is false by design (`C123_convert_false`) |
| F51 | `C124_text_false`, `C124_small_false`, `C124_other_key_false`, `C124_stripped_false` | the README's lookup compares the stored key with the text of the key, but stored keys carry their length prefix, so it finds nothing (or another key's value), and removing the prefix before comparing goes wrong because the order is by prefix first; with fewer than eight entries `find_value_bytes` is an error, where README and rustdoc promise a linear scan |
| F52 | `C125_refused_walk_false`, `C125_pair_false`, `C125_failed_walk_false`, `C125_dropped_walk_false` | the README says a failed nested walk does not put the parent out of step. `MapEntry::walk_value` consumes the entry: when it refuses (a bulk-encoded vector, on valid data) the key is read, the count is not, and the value is taken for the next key; the same after `decode_pair` on an entry whose key was read. A walk that fails on its tag has consumed the tag. `SeqItem::walk` says that after the nested walker is dropped the following item comes next; that is so only if it was used to its end |
| F53 | `C126_dropped_walk_false`, `C126_order_false`, `C126_indexed_walk_false` | the README says that after `walk_<field>` the caller can keep reading siblings once the sub-walker is dropped: true only if it was used to its end, else the next field is read from the middle of this one. Calls out of order are not noticed although every walker keeps a position counter (`pos` is written and never read): decoding `b` before `a` gives `a`'s bytes as `b`. `walk_<field>` is refused on current data of a struct with field offsets, which the README does not list among the refusals |
| F54 | `C127_dropped_walk_false`, `C127_failed_walk_false`, `C127_counter_false` | `StructWalker::walk` says the parent can resume after the nested walker is dropped, and the README that a failed nested walk does not desynchronise the parent: a walker dropped early leaves the rest of its field to be read as the next one, and a walk into an `Option` with a bad tag leaves `position()` unchanged but the tag read. `position` is a `u32` incremented without a check: the 2^32nd field, which may be of no bytes, panics in debug builds and wraps in release builds |
| F55 | `C129_read_map_false`, `C129_narrow_walker_false` | `deserialize_indexed_map` adds 8 to the table size unchecked: for a declared length of 2^61 - 1 a debug build panics, a release build wraps to 0 and goes on reading keys where the table is. On 32-bit machines the map walker's sums of region lengths overflow too: debug panics where release reports an overrun or panics |
| F56 | `C130_usize_false`, `C130_length_false`, `C130_walker_false` | `usize` and `isize` are read as 64 bits and cast: on a 32-bit machine `2^32 + 3` silently becomes `3`, and a length prefix of `2^32` an empty collection followed by its elements as the next value. The indexed readers refuse such lengths (`C130_indexed_length`), but their walkers panic on damaged region lengths a 64-bit machine reports |
| F57 | `C131_unit_false` | Work is not bounded by the input for elements that take no bytes: at most nine bytes make the decoder, the skipper and the validator of `Vec<()>` run their loop `2^64 - 1` times |
| F58 | `C132_box` | `Box<T>`, `Arc<T>` and the other transparent wrappers report revision 1 whatever `T` reports, although their data is that of `T`, header included; `Cow<T>` alone forwards `T::revision()` |
| F59 | `C133_quadratic` | an optimised type that contains itself is read in time quadratic in the depth of the value, even from a slice: every enclosing record copies the bytes of all records in it into a buffer of its own. `k + 1` nodes of 6 bytes cost `(3k + 1)(k + 1)` bytes copied |
| F60 | `C134_quadratic` | an optimised type that contains itself is also serialised in time quadratic in the depth of the value: every enclosing record writes the bytes of all records in it to a buffer of its own before copying them out. `k + 1` nodes of 6 bytes cost `(3k + 1)(k + 1)` bytes buffered |

## 6. Trusted base

* Lean 4.33.0's kernel. No axioms are added; no `sorry`, `native_decide` or `bv_decide`. `#print axioms` on the property
  theorems gives a subset of `propext`, `Classical.choice`, `Quot.sound` (`tools/axioms.sh` prints them).
* That the definitions under `Model/` say what the cited Rust lines do. This is by reading; nothing is extracted.
* That the statements in `Props/` with the definitions in `Spec/` say what `properties.jsonl` says.

Modelled: the files in section 2, with these simplifications.

* `io::Read`/`io::Write` are slices and `Vec<u8>`: no error but end of input, no short reads, no interruption. Except in
  `Model/Stream` and `Model/Sink`, where they are arbitrary event lists and the standard library's `read_exact`, `read_to_end`
  and `write_all` are modelled from their documentation; with `Model/DeriveIo` and `Model/ThirdIo` these cover `Ty`, programs of derived types
  and the types of other crates, not walkers (which take a slice or a buffered reader).
* Error values carry only what a theorem mentions (kind and, for some, the offending value).
* `String` is Lean's `String` (valid UTF-8 by construction); UTF-8 validation of input is `String.fromUTF8?`.
* Floats are bit patterns; NaN is a predicate on them. Pointers (`Box`, `Arc`, `Cow`, `Wrapping`, `Reverse`) are the identity.
* Hash collections are association lists in some iteration order; hashing is not modelled, `Eq` is an arbitrary equivalence.
* The codecs of bulk vectors describe the effect of the `unsafe` fast paths on a little-endian machine; C115 proves that the
  fast paths, modelled with their memory, have this effect and no undefined behaviour.  Pointer provenance is not modelled.
* Macro input is token trees (`Model/Parse`), in which what `syn` parses by itself (types, visibilities, generics) is one token and a
  literal is its value. The theorems on later passes start from the parsed declaration; `C104_accepted_partial` joins the two.
* A 64-bit machine and a build with overflow checks: unchecked overflow is `panic`. (`debug_assert!` is off, as in release builds.)
  C129 and C130 are about other builds and machines; on them the impls of other crates' types, the readers over buffers and the
  walkers of derived types are not modelled.
* The stack is unbounded.

* What the impls for other crates' types call in those crates (`chrono`'s calendar, `geo`'s ring closing, `rust_decimal`'s,
  `regex`'s and `roaring`'s own formats) is modelled from those crates' documentation, or is a parameter with its law as a hypothesis
  (`DecimalLib.Law`, `RegexLib.Law`, `BitmapLib.Law`).
* The types of a program that are not derived (`Kind.foreign`) are given by impls that keep `Foreign` (`Spec/Foreign`); the bitmaps of
  `roaring` do not (F38).

Not modelled: the text of the generated code (what it does is modelled); lifetimes (but see C116) and aliasing; concurrency (the crate has none).

## 7. Testing the theorems

`seeded/gen*.py` list edits of the model that realistic bugs would make, each with the properties it falsifies.
`tools/mutate.py` applies each in a scratch copy, rebuilds as far as possible (a broken lemma is replaced so that the
build goes on) and reports which property theorems depend on something that no longer proves. An edit whose listed properties all fail is
"OK"; otherwise the theorem is tightened. Results: `seeded/LOG.jsonl`.

The model itself is tested in `Suite/*`: the assertions of the crate's unit tests and of `/repo/tests/*.rs` are repeated on it,
with the types those tests declare, the byte strings they pin and the errors they expect, and evaluated in the kernel. The crate
passes these tests, so an assertion that failed of the model would show an error of the model; none does. They are examples on
literals and not proofs, and no claim in `MANIFEST.json` names them. Tests left out: those that pin the text of messages, those of
compile failures (C46 and C104 say which declarations are rejected), and those whose outcome depends on iteration order of hash tables.

## 8. Tools

`tools/imports.sh` regenerates `Verif.lean`; `tools/manifest.py` regenerates `MANIFEST.json`;
`tools/mutate.py`, `tools/deps.lean.txt` the mutation runner and the dependency table it uses.
