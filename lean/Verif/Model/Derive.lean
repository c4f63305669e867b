import Verif.Model.Schema
import Verif.Model.Optimised

/-!
# The code `#[revisioned]` generates: serialise, deserialise, skip

Models `/repo/revision-derive/src/expand/{mod,ser,de,skip}.rs` and `expand/optimised/*.rs`.  The
macro is a function from a declaration to Rust code; here it is a function from a declaration to the
meaning of that code.  Values of all field types live in one type `V`; a field's `Codec V` says
which of them belong to the field's type.
-/

namespace Revision

/-- A declared field, `/repo/revision-derive/src/ast/mod.rs:226-233`, with the trait impls of its
type and the user's functions:
* `name`: the binding, `FieldName::to_binding`, `:207-214`;
* `plain`: `SerializeRevisioned`/`DeserializeRevisioned`/`SkipRevisioned` of the field's type;
* `fixedLe`, `bulk`: the helpers selected by `#[revision(fixed)]` and `#[revision(specialised)]`,
  `/repo/revision-derive/src/expand/common.rs:178-248`;
* `indexed`: the `Indexed*Encoded` impl selected by `indexed_map`, `indexed_seq`, `indexed_set`;
* `dflt`: `Self::default_fn(rev)`, or `Default::default()`;
* `convert`: `Self::convert_fn(&mut this, rev, value)`, returning the changed `this`. -/
structure FieldDecl (V : Type) where
  name : String
  opts : FieldOptions
  plain : Codec V
  fixedLe : Codec V
  bulk : Codec V
  indexed : Codec V
  dflt : Nat → Res V
  convert : Nat → V → List V → Res (List V)

namespace FieldDecl

variable {V : Type}

/-- `f.attrs.options.exists_at(r)`: `/repo/revision-derive/src/ast/attributes.rs:190-194`. -/
def existsAt (f : FieldDecl V) (r : Nat) : Bool := Revision.existsAt f.opts.start f.opts.stop r

/-- One of `indexed_map`, `indexed_seq`, `indexed_set`: `/repo/revision-derive/src/ast/attributes.rs:164-188`. -/
def isIndexed (f : FieldDecl V) : Bool := f.opts.indexedMap || f.opts.indexedSeq || f.opts.indexedSet

/-- The field's encoding at a revision with the legacy encoding: `SerializeFields::visit_field`,
`/repo/revision-derive/src/expand/ser.rs:125-146`. -/
def legacyC (f : FieldDecl V) : Codec V :=
  if f.opts.fixed then f.fixedLe else if f.opts.specialised then f.bulk else f.plain

/-- The field's encoding in an optimised struct,
`/repo/revision-derive/src/expand/optimised/struct_codegen.rs:84-111`. -/
def optimisedC (f : FieldDecl V) : Codec V := if f.isIndexed then f.indexed else f.plain

/-- The field's encoding in a struct written at entry `e`:
`/repo/revision-derive/src/expand/ser.rs:125-146` and
`/repo/revision-derive/src/expand/optimised/struct_codegen.rs:84-111`. -/
def wire (f : FieldDecl V) (e : Entry) : Codec V := if e.optimised then f.optimisedC else f.legacyC

/-- How a field removed from the struct since entry `e` is decoded:
`/repo/revision-derive/src/expand/de.rs:427-443`, and in an optimised struct the plain impl even for
`indexed_*` fields, `optimised/struct_codegen.rs:195-211`. -/
def removedDec (f : FieldDecl V) (e : Entry) : Rd V :=
  if e.optimised then f.plain.dec else f.legacyC.dec

/-- How a field of a legacy-encoded item is skipped:
`/repo/revision-derive/src/expand/skip.rs:148-187`; `specialised` is not looked at. -/
def legacySkip (f : FieldDecl V) : Rd Unit := if f.opts.fixed then f.fixedLe.skip else f.plain.skip

/-- The same with `slice_mode`: `/repo/revision-derive/src/expand/skip.rs:148-187`. -/
def legacySkipS (f : FieldDecl V) : Rd Unit := if f.opts.fixed then f.fixedLe.skip else f.plain.skipS

end FieldDecl

/-- Local variables of the generated code, the most recent `let` first:
the `let` statements of `/repo/revision-derive/src/expand/de.rs:384-450`. -/
abbrev Binds (V : Type) := List (String × V)

/-- Models `DeserializeFields::visit_fields`, `/repo/revision-derive/src/expand/de.rs:384-450`, and
the loop of `emit_struct_deserialize`,
`/repo/revision-derive/src/expand/optimised/struct_codegen.rs:154-214`: `live` decodes a field that
still exists, `removed` one that no longer does. -/
def decodeFields {V : Type} (live removed : FieldDecl V → Rd V) (cur tgt : Nat) :
    List (FieldDecl V) → Binds V → Rd (Binds V)
  | [], env => pure env
  | f :: fs, env =>
    if f.existsAt tgt && f.existsAt cur then do
      let v ← live f
      decodeFields live removed cur tgt fs ((f.name, v) :: env)
    else if f.existsAt tgt && !f.existsAt cur then do
      let v ← Rd.lift (f.dflt cur)
      decodeFields live removed cur tgt fs ((f.name, v) :: env)
    else if !f.existsAt tgt && f.existsAt cur then do
      let v ← removed f
      decodeFields live removed cur tgt fs ((f.name, v) :: env)
    else decodeFields live removed cur tgt fs env

/-- The use of a local variable.  A variable that is not bound does not compile; here it panics:
`/repo/revision-derive/src/expand/de.rs:139-160`. -/
def useBind {V : Type} (env : Binds V) (name : String) : Res V :=
  match env.lookup name with
  | some v => .ok v
  | none => .panic

/-- `Self { #(bindings),* }` over the fields alive at `r`,
`/repo/revision-derive/src/expand/de.rs:139-160`. -/
def construct {V : Type} (r : Nat) (env : Binds V) : List (FieldDecl V) → Res (List V)
  | [] => .ok []
  | f :: fs =>
    if f.existsAt r then do
      let v ← useBind env f.name
      let vs ← construct r env fs
      pure (v :: vs)
    else construct r env fs

/-- The calls of the convert functions, `/repo/revision-derive/src/expand/de.rs:180-199` and
`optimised/struct_codegen.rs:226-246`. -/
def runConverts {V : Type} (cur tgt : Nat) (env : Binds V) :
    List (FieldDecl V) → List V → Res (List V)
  | [], this => .ok this
  | f :: fs, this =>
    if f.existsAt cur && !f.existsAt tgt then do
      let v ← useBind env f.name
      let this' ← f.convert cur v this
      runConverts cur tgt env fs this'
    else runConverts cur tgt env fs this

/-- Decode the fields, build the value, run the converts: `/repo/revision-derive/src/expand/de.rs:121-202`. -/
def decodeStructBody {V : Type} (live removed : FieldDecl V → Rd V) (cur tgt : Nat)
    (fs : List (FieldDecl V)) : Rd (List V) := do
  let env ← decodeFields live removed cur tgt fs []
  let this ← Rd.lift (construct tgt env fs)
  Rd.lift (runConverts cur tgt env fs this)

/-- Run a reader on a buffer of its own (`&mut &buf[..]`); what it leaves is dropped:
as the payloads of `/repo/revision-derive/src/expand/optimised/struct_codegen.rs:260-267`. -/
def Rd.within (m : Rd α) (buf : Bytes) : Res α :=
  match m buf with
  | .ok (a, _) => .ok a
  | .err e => .err e
  | .panic => .panic

/-! ### Structs -/

/-- Models `SerializeFields` over a struct, `/repo/revision-derive/src/expand/ser.rs:29-73` and
`:118-147`.  `self` is the list of the fields alive at `r`. -/
def serializeFields {V : Type} (enc : FieldDecl V → V → Res Bytes) (r : Nat) :
    List (FieldDecl V) → List V → Res Bytes
  | [], _ => .ok []
  | f :: fs, this =>
    if f.existsAt r then
      match this with
      | [] => .panic
      | v :: vs => do
        let b ← enc f v
        let bs ← serializeFields enc r fs vs
        pure (b ++ bs)
    else serializeFields enc r fs this

/-- The fields of an indexed struct with their offsets,
`/repo/revision-derive/src/expand/optimised/struct_codegen.rs:72-112`: `pos` is `__scratch.len()`
so far, the result the offset table and the field bytes.  `as u32` truncates. -/
def serializeIndexedFields {V : Type} (enc : FieldDecl V → V → Res Bytes) (r : Nat) :
    List (FieldDecl V) → List V → Nat → Res (Bytes × Bytes)
  | [], _, _ => .ok ([], [])
  | f :: fs, this, pos =>
    if f.existsAt r then
      match this with
      | [] => .panic
      | v :: vs => do
        let b ← enc f v
        let (tbl, bs) ← serializeIndexedFields enc r fs vs (pos + b.length)
        pure (leBytes 4 pos ++ tbl, b ++ bs)
    else serializeIndexedFields enc r fs this pos

/-- `__len: u32 = __scratch.len().try_into()…; write len; write scratch`,
`/repo/revision-derive/src/expand/optimised/struct_codegen.rs:115-126`. -/
def lengthPrefixed (scratch : Bytes) : Res Bytes :=
  if scratch.length < 2 ^ 32 then .ok (leBytes 4 scratch.length ++ scratch) else .err .serialize

/-- The number of fields alive at `r`:
`/repo/revision-derive/src/expand/walk.rs:1630-1648` and
`/repo/revision-derive/src/expand/optimised/struct_codegen.rs:311-313`. -/
def aliveCount {V : Type} (fs : List (FieldDecl V)) (r : Nat) : Nat :=
  (fs.filter (·.existsAt r)).length

/-- Models `emit_struct_serialize`,
`/repo/revision-derive/src/expand/optimised/struct_codegen.rs:28-129`, and the legacy body,
`/repo/revision-derive/src/expand/ser.rs:29-73`. -/
def serializeStructBody {V : Type} (e : Entry) (fs : List (FieldDecl V)) (this : List V) :
    Res Bytes :=
  let enc := fun f v => (f.wire e).enc v
  if e.optimised then
    if e.indexedStruct then do
      let (tbl, bs) ← serializeIndexedFields enc e.revision fs this (4 * aliveCount fs e.revision)
      lengthPrefixed (tbl ++ bs)
    else do
      let bs ← serializeFields enc e.revision fs this
      lengthPrefixed bs
  else serializeFields enc e.revision fs this

/-- `read_exact` of the length, then of the payload,
`/repo/revision-derive/src/expand/optimised/struct_codegen.rs:260-267`.
Simplification: the allocation of the buffer, at most 4 GiB, always succeeds; `Model/Payload.lean` is
without it, and `C94_buffers` relates the two. -/
def readLengthPrefixed : Rd Bytes := do
  let len ← readVarlenLen
  Rd.readExact len

/-- Models the struct arms of `__deserialize_after_header`: `DeserializeVisitor::visit_struct`,
`/repo/revision-derive/src/expand/de.rs:121-202`, and `emit_struct_deserialize`,
`/repo/revision-derive/src/expand/optimised/struct_codegen.rs:135-272`. -/
def deserializeStructBody {V : Type} (e : Entry) (tgt : Nat) (fs : List (FieldDecl V)) :
    Rd (List V) :=
  let body := decodeStructBody (fun f => (f.wire e).dec) (fun f => f.removedDec e) e.revision tgt fs
  if e.optimised then do
    let payload ← readLengthPrefixed
    if e.indexedStruct then
      if payload.length < 4 * aliveCount fs e.revision then Rd.fail .overrun
      else Rd.lift (body.within (payload.drop (4 * aliveCount fs e.revision)))
    else Rd.lift (body.within payload)
  else body

/-- Models `SkipFields::visit_fields`, `/repo/revision-derive/src/expand/skip.rs:133-194`. -/
def skipFields {V : Type} (skip : FieldDecl V → Rd Unit) (cur tgt : Nat) :
    List (FieldDecl V) → Rd Unit
  | [] => pure ()
  | f :: fs =>
    if f.existsAt tgt && f.existsAt cur then do
      skip f
      skipFields skip cur tgt fs
    else if f.existsAt tgt && !f.existsAt cur then skipFields skip cur tgt fs
    else if !f.existsAt tgt && f.existsAt cur then do
      skip f
      skipFields skip cur tgt fs
    else skipFields skip cur tgt fs

/-- Models the struct arms of `skip_revisioned`: `SkipVisitor::visit_struct`,
`/repo/revision-derive/src/expand/skip.rs:61-89`, and `emit_struct_skip`,
`/repo/revision-derive/src/expand/optimised/struct_codegen.rs:285-294`. -/
def skipStructBody {V : Type} (e : Entry) (tgt : Nat) (fs : List (FieldDecl V)) : Rd Unit :=
  if e.optimised then do
    let len ← readVarlenLen
    Rd.advance len
  else skipFields FieldDecl.legacySkip e.revision tgt fs

/-- The same for `skip_revisioned_slice`, with `emit_struct_skip`,
`/repo/revision-derive/src/expand/optimised/struct_codegen.rs:276-284`. -/
def skipSStructBody {V : Type} (e : Entry) (tgt : Nat) (fs : List (FieldDecl V)) : Rd Unit :=
  if e.optimised then do
    let len ← readVarlenLen
    Rd.consume len
  else skipFields FieldDecl.legacySkipS e.revision tgt fs

/-- Models `match __revision { … x => Err(Deserialize) }`,
`/repo/revision-derive/src/expand/mod.rs:158-178` and `:245-253`: the arms are the history. -/
def dispatchRevision (cfg : Cfg) (h : List Entry) (arm : Entry → Rd α) : Rd α := do
  let r ← readU16 cfg
  match h.find? (fun e => e.revision == r) with
  | some e => arm e
  | none => Rd.fail .deserialize

/-- The entry the serialiser uses: `history.last()`: `/repo/revision-derive/src/expand/mod.rs:29-54`. -/
def lastEntry (h : List Entry) : Entry := h.getLast?.getD (Entry.legacy 0)

/-- Values of a struct at the current revision: one valid value per live field:
the values `/repo/revision-derive/src/expand/ser.rs:29-73` destructures. -/
def ValidFields {V : Type} (c : FieldDecl V → Codec V) (r : Nat) : List (FieldDecl V) → List V → Prop
  | [], vs => vs = []
  | f :: fs, vs =>
    if f.existsAt r then
      match vs with
      | [] => False
      | v :: vs => (c f).valid v ∧ ValidFields c r fs vs
    else ValidFields c r fs vs

/-- The impls generated for a struct: `revision`, `/repo/revision-derive/src/expand/mod.rs:22-292`.
`check` is the generated `skip_check_revisioned`, `:188-200`. -/
def structC {V : Type} (cfg : Cfg) (h : List Entry) (fs : List (FieldDecl V)) : Codec (List V) :=
  let dec := dispatchRevision cfg h (fun e => deserializeStructBody e (latest h) fs)
  { valid := ValidFields (fun f => f.wire (lastEntry h)) (latest h) fs
    enc := fun this => do
      let b ← serializeStructBody (lastEntry h) fs this
      pure (encU16 cfg (latest h) ++ b)
    dec := dec
    skip := dispatchRevision cfg h (fun e => skipStructBody e (latest h) fs)
    skipS := dispatchRevision cfg h (fun e => skipSStructBody e (latest h) fs)
    check := dec.discard }

/-! ### Enums -/

/-- A value of an enum: the variant and its fields alive at the current revision:
the values `/repo/revision-derive/src/expand/ser.rs:156-236` matches on. -/
structure EnumVal (V : Type) where
  variant : String
  fields : List V

/-- A declared variant, `/repo/revision-derive/src/ast/mod.rs:76-82`; `convert` is
`Self::convert_fn(fields, rev)`. -/
structure VariantDecl (V : Type) where
  ident : String
  opts : VariantOptions
  fields : List (FieldDecl V)
  convert : List V → Nat → Res (EnumVal V)

namespace VariantDecl

variable {V : Type}

/-- `v.attrs.options.exists_at(r)`: `/repo/revision-derive/src/ast/attributes.rs:672-676`. -/
def existsAt (v : VariantDecl V) (r : Nat) : Bool := Revision.existsAt v.opts.start v.opts.stop r

/-- What the revision passes see of a variant: `/repo/revision-derive/src/ast/mod.rs:76-82`. -/
def sig (v : VariantDecl V) : VariantSig := ⟨v.ident, v.opts, v.fields.map (·.opts)⟩

end VariantDecl

/-- The discriminants at revision `r`; a clash of overrides does not compile and here leaves no
variant with a discriminant: `/repo/revision-derive/src/expand/common.rs:49-94`. -/
def discsAt {V : Type} (vs : List (VariantDecl V)) (r : Nat) : Discs :=
  match calcDiscs r (vs.map VariantDecl.sig) with
  | .ok d => d
  | .error _ => []

/-- The variants alive at `r` with their discriminants, in declaration order: the match arms of
`SerializeVariant`, `DeserializeVariant`, `SkipVariant` and of the optimised enum code:
`/repo/revision-derive/src/expand/ser.rs:156-236` and
`/repo/revision-derive/src/expand/optimised/enum_codegen.rs:68-71`. -/
def variantArms {V : Type} (vs : List (VariantDecl V)) (r : Nat) : List (Nat × VariantDecl V) :=
  (vs.filter (·.existsAt r)).filterMap fun v => ((discsAt vs r).lookup v.ident).map (·, v)

/-- The encoding of a variant's field: legacy, `/repo/revision-derive/src/expand/ser.rs:125-146`;
optimised, always the plain impl, `optimised/enum_codegen.rs:116-121`, `:352-357`. -/
def FieldDecl.variantWire {V : Type} (f : FieldDecl V) (e : Entry) : Codec V :=
  if e.optimised then f.plain else f.legacyC

/-- The size class of a declared size, `/repo/revision-derive/src/expand/optimised/enum_codegen.rs:40-52`. -/
def VariantSize.cls : VariantSize → SizeClass
  | .inline => .inline
  | .fixed _ => .fixed
  | .varlen => .varlen

/-- A tag and the payload of its size class, `emit_enum_serialize`,
`/repo/revision-derive/src/expand/optimised/enum_codegen.rs:101-167`: release build, so the
`debug_assert_eq!` on the size of a fixed payload is not executed.  An inline variant with live
fields is a compile error. -/
def serializeSized (id : Nat) (size : VariantSize) (body : Bytes) : Res Bytes :=
  let tag := Tag.new (UInt8.ofNat id) size.cls
  match size with
  | .inline => .ok [tag]
  | .fixed _ => .ok (tag :: body)
  | .varlen => do
    let b ← lengthPrefixed body
    pure (tag :: b)

/-- Models `SerializeVariant`, `/repo/revision-derive/src/expand/ser.rs:156-236`, and
`emit_enum_serialize`, `/repo/revision-derive/src/expand/optimised/enum_codegen.rs:73-180`.  A value
of a variant that is not alive cannot be built. -/
def serializeEnumBody {V : Type} (cfg : Cfg) (e : Entry) (vs : List (VariantDecl V))
    (x : EnumVal V) : Res Bytes :=
  match (variantArms vs e.revision).find? (fun a => a.2.ident == x.variant) with
  | none => .panic
  | some (id, v) => do
    let body ← serializeFields (fun f w => (f.variantWire e).enc w) e.revision v.fields x.fields
    if e.optimised then serializeSized id (v.opts.size.getD .inline) body
    else pure (encU32 cfg id ++ body)

/-- The arm of `DeserializeVariant` for one variant, `/repo/revision-derive/src/expand/de.rs:214-376`:
decode the fields, build the fields struct, run the field converts, then the variant or its
convert. -/
def decodeLegacyVariant {V : Type} (e : Entry) (tgt : Nat) (v : VariantDecl V) : Rd (EnumVal V) := do
  let fields ← decodeStructBody (fun f => f.legacyC.dec) (fun f => f.legacyC.dec) e.revision tgt v.fields
  if v.existsAt tgt then pure ⟨v.ident, fields⟩
  else Rd.lift (v.convert fields e.revision)

/-- Decode the fields alive at the wire revision one after another,
`/repo/revision-derive/src/expand/optimised/enum_codegen.rs:350-357`. -/
def decodeAlive {V : Type} (r : Nat) : List (FieldDecl V) → Rd (List V)
  | [] => pure []
  | f :: fs =>
    if f.existsAt r then do
      let v ← f.plain.dec
      let vs ← decodeAlive r fs
      pure (v :: vs)
    else decodeAlive r fs

/-- The bytes a variant's body is decoded from,
`/repo/revision-derive/src/expand/optimised/enum_codegen.rs:331-348`. -/
def readSized (size : VariantSize) : Rd Bytes :=
  match size with
  | .inline => pure []
  | .fixed n => Rd.readExact n
  | .varlen => readLengthPrefixed

/-- Models `decode_variant_body`,
`/repo/revision-derive/src/expand/optimised/enum_codegen.rs:321-441`: the variant is built from the
fields alive at the wire revision.  With named fields this compiles only if the same fields are
alive at the current revision; with positional fields, if there are as many of the same types. -/
def decodeOptimisedVariant {V : Type} (e : Entry) (tgt : Nat) (v : VariantDecl V) :
    Rd (EnumVal V) := do
  let body ← readSized (v.opts.size.getD .inline)
  let fields ← Rd.lift ((decodeAlive e.revision v.fields).within body)
  if v.existsAt tgt then pure ⟨v.ident, fields⟩
  else Rd.lift (v.convert fields e.revision)

/-- Models the enum arms of `__deserialize_after_header`: `DeserializeVisitor::visit_enum`,
`/repo/revision-derive/src/expand/de.rs:85-119`, and `emit_enum_deserialize`,
`/repo/revision-derive/src/expand/optimised/enum_codegen.rs:183-228`. -/
def deserializeEnumBody {V : Type} (cfg : Cfg) (e : Entry) (tgt : Nat) (vs : List (VariantDecl V)) :
    Rd (EnumVal V) :=
  if e.optimised then do
    let (tag, sc) ← readOptimisedTag
    match (variantArms vs e.revision).find? (fun a =>
        UInt8.ofNat a.1 == tag.variantId && (a.2.opts.size.getD .inline).cls == sc) with
    | some a => decodeOptimisedVariant e tgt a.2
    | none => Rd.fail .deserialize
  else do
    let d ← readU32 cfg
    match (variantArms vs e.revision).find? (fun a => a.1 == d) with
    | some a => decodeLegacyVariant e tgt a.2
    | none => Rd.fail .deserialize

/-- `__SIZE_TABLE[id]`, `/repo/revision-derive/src/expand/optimised/enum_codegen.rs:243-256`: the
declared size of the fixed variant with that id, else 0. -/
def sizeTable {V : Type} (vs : List (VariantDecl V)) (r : Nat) (id : Nat) : Nat :=
  match (variantArms vs r).findRev? (fun a => a.1 == id) with
  | some a => match a.2.opts.size with
    | some (.fixed n) => n
    | _ => 0
  | none => 0

/-- Models the enum arms of `skip_revisioned` (`adv = advance_read`) and of `skip_revisioned_slice`
(`adv = SliceReader::consume`): `SkipVisitor::visit_enum`,
`/repo/revision-derive/src/expand/skip.rs:22-59`, and `emit_enum_skip`,
`/repo/revision-derive/src/expand/optimised/enum_codegen.rs:234-295`. -/
def skipEnumBody {V : Type} (cfg : Cfg) (adv : Nat → Rd Unit) (skip : FieldDecl V → Rd Unit)
    (e : Entry) (tgt : Nat) (vs : List (VariantDecl V)) : Rd Unit :=
  if e.optimised then do
    let (tag, sc) ← readOptimisedTag
    match sc with
    | .inline => pure ()
    | .fixed => adv (sizeTable vs e.revision tag.variantId.toNat)
    | .varlen => do
      let len ← readVarlenLen
      adv len
  else do
    let d ← readU32 cfg
    match (variantArms vs e.revision).find? (fun a => a.1 == d) with
    | some a => skipFields skip e.revision tgt a.2.fields
    | none => Rd.fail .deserialize

/-- Values of an enum at the current revision: a live variant with a valid value for each of its
live fields.  In an optimised enum an inline variant has no live fields and a fixed one serialises
to its declared number of bytes:
the values `/repo/revision-derive/src/expand/ser.rs:156-236` and
`/repo/revision-derive/src/expand/optimised/enum_codegen.rs:101-167` accept. -/
def ValidEnum {V : Type} (e : Entry) (vs : List (VariantDecl V)) (x : EnumVal V) : Prop :=
  ∃ id v, (id, v) ∈ variantArms vs e.revision ∧ v.ident = x.variant ∧
    ValidFields (fun f => f.variantWire e) e.revision v.fields x.fields ∧
    (e.optimised = true → match v.opts.size.getD .inline with
      | .inline => x.fields = []
      | .fixed n => ∀ b, serializeFields (fun f w => f.plain.enc w) e.revision v.fields x.fields = .ok b →
          b.length = n
      | .varlen => True)

/-- The impls generated for an enum: `revision`, `/repo/revision-derive/src/expand/mod.rs:22-292`. -/
def enumC {V : Type} (cfg : Cfg) (h : List Entry) (vs : List (VariantDecl V)) : Codec (EnumVal V) :=
  let dec := dispatchRevision cfg h (fun e => deserializeEnumBody cfg e (latest h) vs)
  { valid := ValidEnum (lastEntry h) vs
    enc := fun x => do
      let b ← serializeEnumBody cfg (lastEntry h) vs x
      pure (encU16 cfg (latest h) ++ b)
    dec := dec
    skip := dispatchRevision cfg h
      (fun e => skipEnumBody cfg Rd.advance FieldDecl.legacySkip e (latest h) vs)
    skipS := dispatchRevision cfg h
      (fun e => skipEnumBody cfg Rd.consume FieldDecl.legacySkipS e (latest h) vs)
    check := dec.discard }

end Revision
