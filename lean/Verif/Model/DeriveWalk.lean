import Verif.Model.Derive

/-!
# The walkers `#[revisioned]` generates

Models `/repo/revision-derive/src/expand/walk.rs`.  A walker holds the source reader (`&'r mut R`);
here its methods are readers of that source, and the walker is what else it holds.  The position
counter `pos` is written by every method and read by none, so it is left out.
-/

namespace Revision

variable {V : Type}

/-- The item has a `convert_fn` somewhere: `HasConvertFn`,
`/repo/revision-derive/src/expand/common.rs:17-46`. -/
def structHasConvert (fs : List (FieldDecl V)) : Bool := fs.any (·.opts.convert.isSome)

/-- The same for an enum, `/repo/revision-derive/src/expand/common.rs:32-38`. -/
def enumHasConvert (vs : List (VariantDecl V)) : Bool :=
  vs.any fun v => v.opts.convert.isSome || structHasConvert v.fields

/-- Models `__deserialize_after_header(reader, rev)`,
`/repo/revision-derive/src/expand/mod.rs:150-178`. -/
def afterHeader (h : List Entry) (arm : Entry → Rd α) (r : Nat) : Rd α :=
  match h.find? (fun e => e.revision == r) with
  | some e => arm e
  | none => Rd.fail .deserialize

/-- Models `read_borrowed_bytes`, `/repo/src/slice_reader.rs:365-381`. -/
def readBorrowed (n : Nat) : Rd Bytes := do
  let b ← Rd.peek n
  Rd.advance n
  pure b

/-! ### Structs -/

/-- The representation of a struct walker, `emit_struct_walker_struct`,
`/repo/revision-derive/src/expand/walk.rs:348-392`. -/
inductive StructRepr
  | wire (rev : Nat)
  | indexed (bytes : Bytes) (fieldCount : Nat)
  | converted (bytes : Bytes) (cursor : Nat)
  deriving DecidableEq, Repr

/-- Models `walk_revisioned` of a struct, `/repo/revision-derive/src/expand/walk.rs:312-325`, with
the materialising branch, `:105-120`, and the arms of the optimised revisions, `:165-212`. -/
def walkStruct (cfg : Cfg) (h : List Entry) (fs : List (FieldDecl V)) : Rd StructRepr := do
  let r ← readU16 cfg
  if r = 0 ∨ latest h < r then Rd.fail .deserialize
  else if structHasConvert fs && r != latest h then do
    let value ← afterHeader h (fun e => deserializeStructBody e (latest h) fs) r
    let buf ← Rd.lift ((structC cfg h fs).enc value)
    let rest ← Rd.lift (match readU16 cfg buf with
      | .ok (_, rest) => .ok rest
      | .err e => .err e
      | .panic => .panic)
    pure (.converted buf (buf.length - rest.length))
  else match h.find? (fun e => e.optimised && e.revision == r) with
    | some e =>
      if e.indexedStruct then do
        let len ← readVarlenLen
        let payload ← readBorrowed len
        pure (.indexed payload (aliveCount fs (latest h)))
      else do
        let _ ← readVarlenLen
        pure (.wire r)
    | none => pure (.wire r)

namespace StructRepr

/-- Models `revision()`, `/repo/revision-derive/src/expand/walk.rs:298-309`. -/
def revision (latest : Nat) : StructRepr → Nat
  | .wire r => r
  | .indexed .. => latest
  | .converted .. => latest

/-- `always_present || *wire_rev >= start`, `/repo/revision-derive/src/expand/walk.rs:480-481` and
`:529-557`.  Simplification: `start` fits its `u16` (it is at most the current revision). -/
def present (f : FieldDecl V) (rev : Nat) : Bool := f.opts.start.getD 0 ≤ rev

/-- The bytes of field `idx` of an indexed struct, with panicking slices,
`/repo/revision-derive/src/expand/walk.rs:1038-1055` and `:637-656`. -/
def fieldSlice (bytes : Bytes) (fieldCount idx : Nat) : Res Bytes := do
  let start ← decodeU32At bytes (idx * 4)
  let stop ← (if idx + 1 < fieldCount then decodeU32At bytes (idx * 4 + 4) else .ok bytes.length)
  sliceR bytes start stop

/-- The same with checks, `/repo/revision-derive/src/expand/walk.rs:930-971`. -/
def checkedFieldSlice (bytes : Bytes) (fieldCount idx : Nat) : Res Bytes :=
  if idx * 4 + (if idx + 1 < fieldCount then 8 else 4) > bytes.length then .err .deserialize
  else do
    let start ← decodeU32At bytes (idx * 4)
    let stop ← (if idx + 1 < fieldCount then decodeU32At bytes (idx * 4 + 4) else .ok bytes.length)
    if start > stop ∨ stop > bytes.length then .err .deserialize
    else sliceR bytes start stop

/-- Run a reader on `&bytes[cursor..]`, giving also the new cursor,
`/repo/revision-derive/src/expand/walk.rs:1062-1064`. -/
def atCursor (m : Rd α) (bytes : Bytes) (cursor : Nat) : Res (α × Nat) := do
  let s ← sliceR bytes cursor bytes.length
  match m s with
  | .ok (a, rest) => .ok (a, bytes.length - rest.length)
  | .err e => .err e
  | .panic => .panic

/-- Models `decode_<field>` of the field `f`, the `idx`-th of those alive at the current revision,
`/repo/revision-derive/src/expand/walk.rs:1023-1069` with `:492-510` and `:529-547`. -/
def decodeField (idx : Nat) (f : FieldDecl V) : StructRepr → Rd (V × StructRepr)
  | .wire rev => do
    let v ← (if present f rev then f.optimisedC.dec else Rd.lift (f.dflt rev))
    pure (v, .wire rev)
  | .indexed bytes fc => do
    let s ← Rd.lift (fieldSlice bytes fc idx)
    let v ← Rd.lift (f.plain.dec.within s)
    pure (v, .indexed bytes fc)
  | .converted bytes cursor => do
    let (v, cursor') ← Rd.lift (atCursor f.plain.dec bytes cursor)
    pure (v, .converted bytes cursor')

/-- Models `skip_<field>`, `/repo/revision-derive/src/expand/walk.rs:1077-1097` with `:511-527` and
`:549-557`. -/
def skipField (f : FieldDecl V) : StructRepr → Rd StructRepr
  | .wire rev => do
    let _ ← (if present f rev then f.optimisedC.skip else pure ())
    pure (.wire rev)
  | .indexed bytes fc => pure (.indexed bytes fc)
  | .converted bytes cursor => do
    let (_, cursor') ← Rd.lift (atCursor f.plain.skip bytes cursor)
    pure (.converted bytes cursor')

/-- Run a reader and give the bytes it consumed: `remaining()` before and after,
`/repo/revision-derive/src/expand/walk.rs:672-710`. -/
def consumed (m : Rd Unit) : Rd Bytes := ⟨fun s =>
  match m s with
  | .ok (_, r) => .ok (s.take (s.length - r.length), r)
  | .err e => .err e
  | .panic => .panic⟩

/-- Models `walk_<field>` of an `indexed_*` field: the bytes of the view,
`/repo/revision-derive/src/expand/walk.rs:718-853` with `:633-662` and `:668-712`. -/
def viewField (idx : Nat) (f : FieldDecl V) : StructRepr → Rd Bytes
  | .indexed bytes fc => Rd.lift (fieldSlice bytes fc idx)
  | .wire _ => consumed f.indexed.skip
  | .converted bytes cursor => do
    let (v, _) ← decodeField idx f (.converted bytes cursor)
    Rd.lift (f.indexed.enc v)

/-- Models `walk_<field>` of any other field, `inner` being the `walk_revisioned` of its type,
`/repo/revision-derive/src/expand/walk.rs:854-890` with `:583-604`. -/
def walkField (inner : Rd ω) (f : FieldDecl V) : StructRepr → Rd ω
  | .wire rev => if present f rev then inner else Rd.fail .conversion
  | .indexed .. => Rd.fail .conversion
  | .converted .. => Rd.fail .conversion

/-- Models `into_<field>_bytes`, `/repo/revision-derive/src/expand/walk.rs:911-1013`. -/
def intoFieldBytes (idx : Nat) (f : FieldDecl V) : StructRepr → Rd Bytes
  | .indexed bytes fc => Rd.lift (checkedFieldSlice bytes fc idx)
  | .wire rev => if present f rev then consumed f.optimisedC.skip else Rd.fail .conversion
  | .converted bytes cursor => do
    let (v, _) ← Rd.lift (atCursor f.plain.dec bytes cursor)
    Rd.lift (f.plain.enc v)

end StructRepr

/-! ### Enums -/

/-- The representation of an enum walker, `emit_enum_walker_struct`,
`/repo/revision-derive/src/expand/walk.rs:394-439`. -/
inductive EnumRepr
  | wire (rev disc : Nat)
  | borrowed (bytes : Bytes) (disc : Nat)
  | converted (bytes : Bytes) (cursor disc : Nat)
  deriving DecidableEq, Repr

/-- The variant of `__SIZE_CLASS_TABLE` and `__FIXED_SIZE_TABLE` with that id: the last alive one,
as the tables are filled by assignment, `/repo/revision-derive/src/expand/walk.rs:1662-1684`. -/
def walkTable (vs : List (VariantDecl V)) (r id : Nat) : Option VariantSize :=
  match (variantArms vs r).findRev? (fun a => a.1 == id) with
  | some a => some (a.2.opts.size.getD .inline)
  | none => none

/-- Models `emit_optimised_enum_walker_arm`, `/repo/revision-derive/src/expand/walk.rs:1651-1741`. -/
def walkOptimisedEnum (vs : List (VariantDecl V)) (r : Nat) : Rd EnumRepr := do
  let (tag, sc) ← readOptimisedTag
  match walkTable vs r tag.variantId.toNat with
  | none => Rd.fail .deserialize
  | some size =>
    if size.cls != sc then Rd.fail .deserialize
    else do
      let payload ← (match size with
        | .inline => pure []
        | .fixed n => readBorrowed n
        | .varlen => do
          let len ← readVarlenLen
          readBorrowed len)
      pure (.borrowed payload tag.variantId.toNat)

/-- Models `walk_revisioned` of an enum, `/repo/revision-derive/src/expand/walk.rs:312-325`, with
the materialising branch, `:121-145`, and `:232-256`. -/
def walkEnum (cfg : Cfg) (h : List Entry) (vs : List (VariantDecl V)) : Rd EnumRepr := do
  let r ← readU16 cfg
  if r = 0 ∨ latest h < r then Rd.fail .deserialize
  else if enumHasConvert vs && r != latest h then do
    let value ← afterHeader h (fun e => deserializeEnumBody cfg e (latest h) vs) r
    let buf ← Rd.lift ((enumC cfg h vs).enc value)
    let rest ← Rd.lift (match readU16 cfg buf with
      | .ok (_, rest) => .ok rest
      | .err e => .err e
      | .panic => .panic)
    let (d, cursor) ← Rd.lift (StructRepr.atCursor (readU32 cfg) buf (buf.length - rest.length))
    pure (.converted buf cursor d)
  else match h.find? (fun e => e.optimised && e.revision == r) with
    | some _ => walkOptimisedEnum vs r
    | none => do
      let d ← readU32 cfg
      pure (.wire r d)

namespace EnumRepr

/-- Models `revision()`, `/repo/revision-derive/src/expand/walk.rs:274-283`. -/
def revision (latest : Nat) : EnumRepr → Nat
  | .wire r _ => r
  | .borrowed .. => latest
  | .converted .. => latest

/-- Models `discriminant()`, `/repo/revision-derive/src/expand/walk.rs:285-296`. -/
def discriminant : EnumRepr → Nat
  | .wire _ d => d
  | .borrowed _ d => d
  | .converted _ _ d => d

/-- Models `is_<variant>` of a variant alive at the current revision,
`/repo/revision-derive/src/expand/walk.rs:1188-1250`. -/
def isVariant (vs : List (VariantDecl V)) (latest : Nat) (v : VariantDecl V) : EnumRepr → Bool
  | .wire r d =>
    let expected := if 1 ≤ r ∧ r ≤ latest ∧ v.existsAt r then (discsAt vs r).lookup v.ident else none
    expected == some d
  | .borrowed _ d => (discsAt vs latest).lookup v.ident == some d
  | .converted _ _ d => (discsAt vs latest).lookup v.ident == some d

/-- Models `into_<variant>` and `decode_<variant>` of a unit variant,
`/repo/revision-derive/src/expand/walk.rs:1258-1284`. -/
def intoUnit (vs : List (VariantDecl V)) (latest : Nat) (v : VariantDecl V) (w : EnumRepr) : Rd Unit :=
  if w.isVariant vs latest v then pure () else Rd.fail .deserialize

/-- Models `into_<variant>` of a tuple variant with the one live field `f`, `inner` being the
`walk_revisioned` of its type, `/repo/revision-derive/src/expand/walk.rs:1305-1334`. -/
def intoVariant (vs : List (VariantDecl V)) (latest : Nat) (v : VariantDecl V) (inner : Rd ω)
    (w : EnumRepr) : Rd ω :=
  if w.isVariant vs latest v then
    match w with
    | .wire .. => inner
    | .borrowed .. => Rd.fail .conversion
    | .converted .. => Rd.fail .conversion
  else Rd.fail .deserialize

/-- Models `decode_<variant>` of a tuple variant with the one live field `f`,
`/repo/revision-derive/src/expand/walk.rs:1341-1369`. -/
def decodeVariant (vs : List (VariantDecl V)) (latest : Nat) (v : VariantDecl V) (f : FieldDecl V)
    (w : EnumRepr) : Rd V :=
  if w.isVariant vs latest v then
    match w with
    | .wire .. => f.plain.dec
    | .borrowed bytes _ => Rd.lift (f.plain.dec.within bytes)
    | .converted bytes cursor _ => do
      let s ← Rd.lift (sliceR bytes cursor bytes.length)
      Rd.lift (f.plain.dec.within s)
  else Rd.fail .deserialize

/-- Models `<variant>_view` of a tuple variant with the one live field `f`: the bytes of the view,
`/repo/revision-derive/src/expand/walk.rs:1385-1426`. -/
def viewSingle (vs : List (VariantDecl V)) (latest : Nat) (v : VariantDecl V) (f : FieldDecl V)
    (w : EnumRepr) : Rd Bytes :=
  if w.isVariant vs latest v then
    match w with
    | .wire .. => do
      let x ← f.plain.dec
      Rd.lift (f.plain.enc x)
    | .borrowed bytes _ => pure bytes
    | .converted bytes cursor _ => pure (bytes.drop cursor)
  else Rd.fail .deserialize

/-- Models `<variant>_view` of any other variant with fields,
`/repo/revision-derive/src/expand/walk.rs:1449-1491`. -/
def viewMulti (vs : List (VariantDecl V)) (latest : Nat) (v : VariantDecl V) (w : EnumRepr) : Rd Bytes :=
  if w.isVariant vs latest v then
    match w with
    | .wire .. => Rd.fail .conversion
    | .borrowed bytes _ => pure bytes
    | .converted bytes cursor _ => pure (bytes.drop cursor)
  else Rd.fail .deserialize

end EnumRepr

end Revision
