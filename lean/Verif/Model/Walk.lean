import Verif.Model.Ty

/-!
# Walkers

Models `/repo/src/walk.rs` and `/repo/src/implementations/walk.rs`.  A walker borrows the reader
(`&'r mut R`); here the reader is threaded by `Rd`, and a walker is only its remaining fields.
-/

namespace Revision

/-- Models `BorrowedReader::peek_bytes`, `/repo/src/slice_reader.rs:253-260`. -/
def Rd.peek (n : Nat) : Rd Bytes := ⟨fun s => if n ≤ s.length then .ok (s.take n, s) else .err .io⟩

/-- Models `with_length_prefixed_bytes`, `/repo/src/walk.rs:165-177`.
Simplification: the callback `f` is a pure function. -/
def withLengthPrefixedBytes (cfg : Cfg) (f : Bytes → β) : Rd β := do
  let len ← readLen cfg
  let bytes ← Rd.peek len
  let result := f bytes
  Rd.advance len
  pure result

/-! ### Leaves: `/repo/src/walk.rs:187-268`.  The walker has no state besides the reader. -/

/-- Models `LeafWalker::decode`, `/repo/src/walk.rs:204-209`. -/
def leafDecode (c : Codec α) : Rd α := c.dec

/-- Models `LeafWalker::skip`, `/repo/src/walk.rs:213-218`. -/
def leafSkip (c : Codec α) : Rd Unit := c.skip

/-- Models `LeafWalker::with_bytes`, `/repo/src/walk.rs:262-267`. -/
def leafWithBytes (cfg : Cfg) (f : Bytes → β) : Rd β := withLengthPrefixedBytes cfg f

/-- The types marked `LengthPrefixedBytes`, `/repo/src/walk.rs:127-148`, on which `with_bytes` and `find_bytes` are
available: `String`, `PathBuf`, `Vec<u8>`, `Vec<i8>`, `bytes::Bytes`, and `Arc<str>`, `Box<str>` and `Cow` of these. -/
def Ty.lengthPrefixed {ι : Type} : Ty ι → Bool
  | .string | .path | .bytes => true
  | .vec (.int .u8) | .vec (.int .i8) => true
  | .wrap t => t.lengthPrefixed
  | _ => false

/-! ### Options -/

/-- Models `struct OptionWalker`, `/repo/src/walk.rs:278-282`. -/
structure OptionWalker where
  tag : BitVec 8
  deriving DecidableEq

namespace OptionWalker

/-- Models `OptionWalker::new`, `/repo/src/walk.rs:287-297`. -/
def new (cfg : Cfg) : Rd OptionWalker := do
  let tag ← decInt cfg .u8
  if tag = 0 ∨ tag = 1 then pure ⟨tag⟩ else Rd.fail .deserialize

/-- Models `OptionWalker::is_some`, `/repo/src/walk.rs:301-303`. -/
def isSome (w : OptionWalker) : Bool := w.tag == 1

/-- Models `OptionWalker::is_none`, `/repo/src/walk.rs:307-309`. -/
def isNone (w : OptionWalker) : Bool := w.tag == 0

/-- Models `OptionWalker::decode`, `/repo/src/walk.rs:313-322`. -/
def decode (c : Codec α) (w : OptionWalker) : Rd (Option α) :=
  if w.tag = 0 then pure none
  else if w.tag = 1 then do
    let a ← c.dec
    pure (some a)
  else Rd.fail .deserialize

/-- Models `OptionWalker::skip`, `/repo/src/walk.rs:326-334`. -/
def skip (c : Codec α) (w : OptionWalker) : Rd Unit :=
  if w.tag = 1 then c.skip else pure ()

/-- Models `OptionWalker::into_some`, `/repo/src/walk.rs:338-347`; `walk` is everything the caller
does with the payload's walker. -/
def intoSome (walk : Rd β) (w : OptionWalker) : Rd β :=
  if w.tag = 0 then Rd.fail .deserialize
  else if w.tag = 1 then walk
  else Rd.fail .deserialize

end OptionWalker

/-! ### Results -/

/-- Models `struct ResultWalker`, `/repo/src/walk.rs:358-362`. -/
structure ResultWalker where
  tag : Nat
  deriving DecidableEq

namespace ResultWalker

/-- Models `ResultWalker::new`, `/repo/src/walk.rs:367-377`. -/
def new (cfg : Cfg) : Rd ResultWalker := do
  let tag ← readU32 cfg
  if tag = 0 ∨ tag = 1 then pure ⟨tag⟩ else Rd.fail .deserialize

/-- Models `ResultWalker::is_ok`, `/repo/src/walk.rs:381-383`. -/
def isOk (w : ResultWalker) : Bool := w.tag == 0

/-- Models `ResultWalker::is_err`, `/repo/src/walk.rs:387-389`. -/
def isErr (w : ResultWalker) : Bool := w.tag == 1

/-- Models `ResultWalker::decode`, `/repo/src/walk.rs:393-403`. -/
def decode (c : Codec α) (d : Codec β) (w : ResultWalker) : Rd (Except β α) :=
  if w.tag = 0 then do
    let a ← c.dec
    pure (.ok a)
  else if w.tag = 1 then do
    let e ← d.dec
    pure (.error e)
  else Rd.fail .deserialize

/-- Models `ResultWalker::skip`, `/repo/src/walk.rs:407-417`. -/
def skip (c : Codec α) (d : Codec β) (w : ResultWalker) : Rd Unit :=
  if w.tag = 0 then c.skip
  else if w.tag = 1 then d.skip
  else Rd.fail .deserialize

/-- Models `ResultWalker::into_ok`, `/repo/src/walk.rs:421-430`. -/
def intoOk (walk : Rd γ) (w : ResultWalker) : Rd γ :=
  if w.tag = 0 then walk
  else if w.tag = 1 then Rd.fail .deserialize
  else Rd.fail .deserialize

/-- Models `ResultWalker::into_err`, `/repo/src/walk.rs:434-443`. -/
def intoErr (walk : Rd γ) (w : ResultWalker) : Rd γ :=
  if w.tag = 0 then Rd.fail .deserialize
  else if w.tag = 1 then walk
  else Rd.fail .deserialize

end ResultWalker

/-! ### Sequences -/

/-- Models `struct SeqWalker`, `/repo/src/walk.rs:466-470`. -/
structure SeqWalker where
  remaining : Nat
  deriving DecidableEq

namespace SeqWalker

/-- Models `SeqWalker::new`, `/repo/src/walk.rs:475-482`. -/
def new (cfg : Cfg) : Rd SeqWalker := do
  let len ← readLen cfg
  pure ⟨len⟩

/-- Models `SeqWalker::next_item`, `/repo/src/walk.rs:495-503`, followed by one of the consuming
methods of the item: `SeqItem::decode` (`m = T::deserialize_revisioned`, `:527-534`), `skip`
(`T::skip_revisioned`, `:538-545`), `walk` (`:553-560`, `m` being all the caller does with the
sub-walker) or `with_bytes` (`:577-584`).  `none` when there is no further item. -/
def item (m : Rd β) (w : SeqWalker) : Rd (Option β × SeqWalker) :=
  if w.remaining = 0 then pure (none, w)
  else do
    let v ← m
    pure (some v, ⟨w.remaining - 1⟩)

/-- Models the loop of `SeqWalker::skip_remaining`, `/repo/src/walk.rs:507-516`. -/
def skipRemaining (skip : Rd Unit) (w : SeqWalker) : Rd Unit := Rd.repeatN w.remaining skip

end SeqWalker

/-! ### Maps -/

/-- Models `struct MapWalker`, `/repo/src/walk.rs:593-597`. -/
structure MapWalker where
  remaining : Nat
  deriving DecidableEq

/-- Models `enum MapCursor`, `/repo/src/walk.rs:600-606`. -/
inductive MapCursor where
  | beforeKey
  | beforeValue
  deriving DecidableEq

/-- Models `struct MapEntry`, `/repo/src/walk.rs:786-789`. -/
structure MapEntry where
  walker : MapWalker
  cursor : MapCursor
  deriving DecidableEq

namespace MapWalker

/-- Models `MapWalker::new`, `/repo/src/walk.rs:611-618`. -/
def new (cfg : Cfg) : Rd MapWalker := do
  let len ← readLen cfg
  pure ⟨len⟩

/-- Models `MapWalker::next_entry`, `/repo/src/walk.rs:633-642`. -/
def nextEntry (w : MapWalker) : Option MapEntry :=
  if w.remaining = 0 then none else some ⟨w, .beforeKey⟩

/-- Models the loop of `MapWalker::skip_remaining`, `/repo/src/walk.rs:646-657`. -/
def skipRemaining (kskip vskip : Rd Unit) (w : MapWalker) : Rd Unit :=
  Rd.repeatN w.remaining (do kskip; vskip)

/-- The loop of `MapWalker::find`, `/repo/src/walk.rs:683-712`, with `n` entries remaining:
`true` is `Some(LeafWalker)` with the reader at the value, `false` is `None`.
`MapWalker::find_bytes`, `:741-773`, is the same loop with the key read as borrowed bytes.
Simplification: the predicate is a pure function; `findAsk` in `Verif.Model.Ask` lifts this. -/
def findLoop (key : Rd κ) (kskip vskip : Rd Unit) (predicate : κ → Ordering) : Nat → Rd Bool
  | 0 => pure false
  | n + 1 => do
    let k ← key
    match predicate k with
    | .lt => do
      vskip
      findLoop key kskip vskip predicate n
    | .eq => pure true
    | .gt => do
      vskip
      Rd.repeatN n (do kskip; vskip)
      pure false

/-- Models `MapWalker::find`, `/repo/src/walk.rs:683-712`. -/
def find (k : Codec κ) (v : Codec β) (predicate : κ → Ordering) (w : MapWalker) : Rd Bool :=
  findLoop k.dec k.skip v.skip predicate w.remaining

/-- Models `MapWalker::find_bytes`, `/repo/src/walk.rs:741-773`. -/
def findBytes (cfg : Cfg) (k : Codec κ) (v : Codec β) (predicate : Bytes → Ordering)
    (w : MapWalker) : Rd Bool :=
  findLoop (withLengthPrefixedBytes cfg id) k.skip v.skip predicate w.remaining

end MapWalker

namespace MapEntry

/-- Models `MapEntry::expect_cursor`, `/repo/src/walk.rs:792-800`. -/
def expectCursor (expected : MapCursor) (e : MapEntry) : Res Unit :=
  if e.cursor ≠ expected then .err .deserialize else .ok ()

/-- Models `MapEntry::decode_key`, `skip_key` and `with_key_bytes`, `/repo/src/walk.rs:804-824`,
`:902-913`, with `m` the read they perform. -/
def key (m : Rd β) (e : MapEntry) : Rd (β × MapEntry) := do
  Rd.lift (e.expectCursor .beforeKey)
  let k ← m
  pure (k, { e with cursor := .beforeValue })

/-- Models `MapEntry::decode_value`, `skip_value`, `walk_value` and `with_value_bytes`,
`/repo/src/walk.rs:828-862`, `:926-935`, with `m` the read they perform.  The entry is consumed and
the walker moves on. -/
def value (m : Rd β) (e : MapEntry) : Rd (β × MapWalker) := do
  Rd.lift (e.expectCursor .beforeValue)
  let v ← m
  pure (v, ⟨e.walker.remaining - 1⟩)

/-- Models `MapEntry::decode_pair`, `/repo/src/walk.rs:865-873`. -/
def decodePair (k : Codec κ) (v : Codec β) (e : MapEntry) : Rd ((κ × β) × MapWalker) := do
  let (a, e) ← e.key k.dec
  let (b, w) ← e.value v.dec
  pure ((a, b), w)

/-- Models `MapEntry::skip_pair`, `/repo/src/walk.rs:877-884`. -/
def skipPair (k : Codec κ) (v : Codec β) (e : MapEntry) : Rd MapWalker := do
  let (_, e) ← e.key k.skip
  let (_, w) ← e.value v.skip
  pure w

end MapEntry

/-! ### Structs and enums: the generic walkers -/

/-- Models `struct StructWalker`, `/repo/src/walk.rs:954-958`. -/
structure StructWalker where
  revision : Nat
  position : Nat
  deriving DecidableEq

namespace StructWalker

/-- Models `StructWalker::new`, `/repo/src/walk.rs:964-970`. -/
def new (revision : Nat) : StructWalker := ⟨revision, 0⟩

/-- Models `StructWalker::decode`, `skip` and `walk`, `/repo/src/walk.rs:994-1019`, with `m` the
read they perform.  Simplification: the `u32` counter does not wrap. -/
def field (m : Rd β) (w : StructWalker) : Rd (β × StructWalker) := do
  let v ← m
  pure (v, { w with position := w.position + 1 })

end StructWalker

/-- Models `struct EnumWalker`, `/repo/src/walk.rs:1056-1060`. -/
structure EnumWalker where
  revision : Nat
  discriminant : Nat
  deriving DecidableEq

/-- Models `EnumWalker::new`, `/repo/src/walk.rs:1067-1074`, and `read_enum_discriminant`,
`:1129-1131`. -/
def EnumWalker.new (cfg : Cfg) (revision : Nat) : Rd EnumWalker := do
  let d ← readU32 cfg
  pure ⟨revision, d⟩

/-! ### `WalkRevisioned` for the supported types -/

/-- Models `vec_uses_bulk_encoding`, `/repo/src/implementations/walk.rs:24-52`. -/
def vecUsesBulkEncoding (cfg : Cfg) : Ty ι → Bool
  | .bool => cfg.specialised
  | .int k => cfg.specialised && [IntTy.u8, .i8, .u16, .i16, .u32, .i32, .u64, .i64, .u128, .i128].contains k
  | .float _ => cfg.specialised
  | .uuid => cfg.specialised
  | _ => false

/-- The walker a type hands out: `/repo/src/walk.rs:187`, `:278`, `:358`, `:466`, `:593`. -/
inductive Walker where
  | leaf
  | option (w : OptionWalker)
  | result (w : ResultWalker)
  | seq (w : SeqWalker)
  | map (w : MapWalker)
  deriving DecidableEq

/-- Models the `WalkRevisioned::walk_revisioned` impls of `/repo/src/implementations/walk.rs:58-460`:
leaves `:58-103`, `:109-229`, options `:179-191`, results `:197-210`, `Vec` `:235-255`, sets and
heaps `:261-302`, `imbl` vectors, maps and sets `:642-710`, maps `:308-337`, transparent wrappers
`:343-419` and `NotNan` `:452-465`, the leaf types of other crates `:468-640`.
`ext` types are taken as leaves; the walkers of derived types are modelled separately. -/
def Ty.walk (cfg : Cfg) : Ty ι → Rd Walker
  | .option _ => do return .option (← OptionWalker.new cfg)
  | .result _ _ => do return .result (← ResultWalker.new cfg)
  | .vec t =>
    if vecUsesBulkEncoding cfg t then Rd.fail .deserialize
    else do return .seq (← SeqWalker.new cfg)
  | .hashSet _ | .btreeSet _ | .binaryHeap _ | .vector _ => do return .seq (← SeqWalker.new cfg)
  | .hashMap _ _ | .btreeMap _ _ => do return .map (← MapWalker.new cfg)
  | .wrap t => t.walk cfg
  | _ => pure .leaf

end Revision
