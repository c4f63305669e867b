import Verif.Model.Program
import Verif.Model.Io

/-!
# Derived types on arbitrary readers and writers

The code `#[revisioned]` generates is generic over `R: std::io::Read` and `W: std::io::Write`.
`Verif.Model.Derive` models it on slices and `Vec<u8>`; here it is modelled again, read by read and write
by write.  The payload of an optimised struct or variant is read into a buffer, or written to a scratch
`Vec<u8>`, in one piece; its fields are then decoded from, or serialised to, that buffer, and this is the
code of `Verif.Model.Derive`.
-/

namespace Revision

/-- A declared field with the impls of its type on arbitrary readers and writers.  The `indexed_*` impls
are only ever used on buffers: `/repo/revision-derive/src/ast/mod.rs:226-233`. -/
structure FieldIo (V : Type) where
  decl : FieldDecl V
  plain : Io V
  fixedLe : Io V
  bulk : Io V

namespace FieldIo

variable {V : Type}

/-- The field's encoding at a revision with the legacy encoding,
`/repo/revision-derive/src/expand/ser.rs:125-146`, `de.rs:384-450`. -/
def legacy (f : FieldIo V) : Io V :=
  if f.decl.opts.fixed then f.fixedLe else if f.decl.opts.specialised then f.bulk else f.plain

/-- Skipping the field, `/repo/revision-derive/src/expand/skip.rs:148-187`; `specialised` is not looked
at. -/
def legacySkip (f : FieldIo V) : Prog Unit := if f.decl.opts.fixed then f.fixedLe.skip else f.plain.skip

end FieldIo

/-! ### Reading -/

/-- Models `DeserializeFields::visit_fields`, `/repo/revision-derive/src/expand/de.rs:384-450`, at a
revision with the legacy encoding. -/
def decodeFieldsP {V : Type} (cur tgt : Nat) : List (FieldIo V) → Binds V → Prog (Binds V)
  | [], env => pure env
  | f :: fs, env =>
    if f.decl.existsAt tgt && f.decl.existsAt cur then do
      let v ← f.legacy.dec
      decodeFieldsP cur tgt fs ((f.decl.name, v) :: env)
    else if f.decl.existsAt tgt && !f.decl.existsAt cur then do
      let v ← Prog.lift (f.decl.dflt cur)
      decodeFieldsP cur tgt fs ((f.decl.name, v) :: env)
    else if !f.decl.existsAt tgt && f.decl.existsAt cur then do
      let v ← f.legacy.dec
      decodeFieldsP cur tgt fs ((f.decl.name, v) :: env)
    else decodeFieldsP cur tgt fs env

/-- Decode the fields, build the value, run the converts, `/repo/revision-derive/src/expand/de.rs:121-202`. -/
def decodeStructBodyP {V : Type} (cur tgt : Nat) (fs : List (FieldIo V)) : Prog (List V) := do
  let env ← decodeFieldsP cur tgt fs []
  let this ← Prog.lift (construct tgt env (fs.map (·.decl)))
  Prog.lift (runConverts cur tgt env (fs.map (·.decl)) this)

/-- `read_exact` of four bytes: `read_varlen_len`, `/repo/src/optimised/envelope.rs:68-72`. -/
def Prog.readVarlenLen : Prog Nat := do
  let b ← Prog.readExact 4
  pure (leVal b)

/-- `read_exact` of the length, then of the payload,
`/repo/revision-derive/src/expand/optimised/struct_codegen.rs:260-267`. -/
def Prog.readLengthPrefixed : Prog Bytes := do
  let len ← Prog.readVarlenLen
  Prog.readExact len

/-- Models `read_tag` and `size_class`, `/repo/src/optimised/tag.rs:104-108`, `envelope.rs:58-62`. -/
def Prog.readOptimisedTag : Prog (Tag × SizeClass) := do
  let tag ← Prog.readByte
  let sc ← Prog.lift (Tag.sizeClass tag)
  pure (tag, sc)

/-- `u16::deserialize_revisioned(reader)`: `/repo/src/implementations/primitives.rs:282-298`. -/
def Prog.readU16 (cfg : Cfg) : Prog Nat := do
  let n ← Prog.decInt cfg .u16
  pure n.toNat

/-- Models the struct arms of `__deserialize_after_header`, `/repo/revision-derive/src/expand/de.rs:121-202`
and `optimised/struct_codegen.rs:135-272`. -/
def deserializeStructBodyP {V : Type} (e : Entry) (tgt : Nat) (fs : List (FieldIo V)) : Prog (List V) :=
  if e.optimised then do
    let body := decodeStructBody (fun f => (f.wire e).dec) (fun f => f.removedDec e) e.revision tgt (fs.map (·.decl))
    let payload ← Prog.readLengthPrefixed
    if e.indexedStruct then
      if payload.length < 4 * aliveCount (fs.map (·.decl)) e.revision then .fail .overrun
      else Prog.lift (body.within (payload.drop (4 * aliveCount (fs.map (·.decl)) e.revision)))
    else Prog.lift (body.within payload)
  else decodeStructBodyP e.revision tgt fs

/-- Models `SkipFields::visit_fields`, `/repo/revision-derive/src/expand/skip.rs:133-194`. -/
def skipFieldsP {V : Type} (cur tgt : Nat) : List (FieldIo V) → Prog Unit
  | [] => pure ()
  | f :: fs =>
    if f.decl.existsAt tgt && f.decl.existsAt cur then do
      f.legacySkip
      skipFieldsP cur tgt fs
    else if f.decl.existsAt tgt && !f.decl.existsAt cur then skipFieldsP cur tgt fs
    else if !f.decl.existsAt tgt && f.decl.existsAt cur then do
      f.legacySkip
      skipFieldsP cur tgt fs
    else skipFieldsP cur tgt fs

/-- Models the struct arms of `skip_revisioned`, `/repo/revision-derive/src/expand/skip.rs:61-89` and
`optimised/struct_codegen.rs:285-294`. -/
def skipStructBodyP {V : Type} (e : Entry) (tgt : Nat) (fs : List (FieldIo V)) : Prog Unit :=
  if e.optimised then do
    let len ← Prog.readVarlenLen
    Prog.advance len
  else skipFieldsP e.revision tgt fs

/-- Models `match __revision { … x => Err(Deserialize) }`,
`/repo/revision-derive/src/expand/mod.rs:158-178` and `:245-253`. -/
def dispatchRevisionP (cfg : Cfg) (h : List Entry) (arm : Entry → Prog α) : Prog α := do
  let r ← Prog.readU16 cfg
  match h.find? (fun e => e.revision == r) with
  | some e => arm e
  | none => .fail .deserialize

/-! ### Writing -/

/-- Code that panics: as in `/repo/revision-derive/src/expand/optimised/enum_codegen.rs:101-167`. -/
def Wr.panic : Wr := ⟨[], .panic⟩

/-- Serialise to a scratch `Vec<u8>`, stop if that fails, then use it:
`/repo/revision-derive/src/expand/optimised/struct_codegen.rs:66-126`. -/
def Wr.scratch (x : Res Bytes) (k : Bytes → Wr) : Wr :=
  match x with
  | .ok b => k b
  | .err e => .fail e
  | .panic => .panic

/-- Models `SerializeFields` at a revision with the legacy encoding: each field is written to the writer
itself, `/repo/revision-derive/src/expand/ser.rs:29-73`, `:118-147`. -/
def writeFields {V : Type} (r : Nat) : List (FieldIo V) → List V → Wr
  | [], _ => .done
  | f :: fs, this =>
    if f.decl.existsAt r then
      match this with
      | [] => .panic
      | v :: vs => (f.legacy.wr v).andThen (writeFields r fs vs)
    else writeFields r fs this

/-- The length as a `u32`, then the scratch buffer, each in one `write_all`,
`/repo/revision-derive/src/expand/optimised/struct_codegen.rs:115-126`. -/
def Wr.lengthPrefixed (scratch : Bytes) : Wr :=
  if scratch.length < 2 ^ 32 then (Wr.all (leBytes 4 scratch.length)).andThen (Wr.all scratch)
  else .fail .serialize

/-- Models `emit_struct_serialize`,
`/repo/revision-derive/src/expand/optimised/struct_codegen.rs:28-129`, and the legacy body,
`/repo/revision-derive/src/expand/ser.rs:29-73`. -/
def writeStructBody {V : Type} (e : Entry) (fs : List (FieldIo V)) (this : List V) : Wr :=
  let enc := fun (f : FieldDecl V) v => (f.wire e).enc v
  if e.optimised then
    if e.indexedStruct then
      .scratch (serializeIndexedFields enc e.revision (fs.map (·.decl)) this
        (4 * aliveCount (fs.map (·.decl)) e.revision) >>= fun p => .ok (p.1 ++ p.2)) .lengthPrefixed
    else .scratch (serializeFields enc e.revision (fs.map (·.decl)) this) .lengthPrefixed
  else writeFields e.revision fs this

/-- The impls generated for a struct, `/repo/revision-derive/src/expand/mod.rs:22-292`. -/
def structIo {V : Type} (cfg : Cfg) (h : List Entry) (fs : List (FieldIo V)) : Io (List V) :=
  let dec := dispatchRevisionP cfg h (fun e => deserializeStructBodyP e (latest h) fs)
  { dec := dec
    skip := dispatchRevisionP cfg h (fun e => skipStructBodyP e (latest h) fs)
    check := dec.discard
    wr := fun this => (Wr.all (encU16 cfg (latest h))).andThen (writeStructBody (lastEntry h) fs this) }

/-! ### Enums -/

/-- A declared variant with the impls of its fields on arbitrary readers and writers:
`/repo/revision-derive/src/ast/mod.rs:76-82`. -/
structure VariantIo (V : Type) where
  decl : VariantDecl V
  fields : List (FieldIo V)
  same : decl.fields = fields.map (·.decl)

/-- The variants alive at `r` with their discriminants, as `variantArms`:
`/repo/revision-derive/src/expand/ser.rs:156-236` and
`/repo/revision-derive/src/expand/optimised/enum_codegen.rs:68-71`. -/
def variantArmsIo {V : Type} (vs : List (VariantIo V)) (r : Nat) : List (Nat × VariantIo V) :=
  (vs.filter (·.decl.existsAt r)).filterMap fun v =>
    ((discsAt (vs.map (·.decl)) r).lookup v.decl.ident).map (·, v)

/-- The arm of `DeserializeVariant` for one variant, `/repo/revision-derive/src/expand/de.rs:214-376`. -/
def decodeLegacyVariantP {V : Type} (e : Entry) (tgt : Nat) (v : VariantIo V) : Prog (EnumVal V) := do
  let fields ← decodeStructBodyP e.revision tgt v.fields
  if v.decl.existsAt tgt then pure ⟨v.decl.ident, fields⟩
  else Prog.lift (v.decl.convert fields e.revision)

/-- The bytes a variant's body is decoded from,
`/repo/revision-derive/src/expand/optimised/enum_codegen.rs:331-348`. -/
def Prog.readSized (size : VariantSize) : Prog Bytes :=
  match size with
  | .inline => pure []
  | .fixed n => Prog.readExact n
  | .varlen => Prog.readLengthPrefixed

/-- Models `decode_variant_body`,
`/repo/revision-derive/src/expand/optimised/enum_codegen.rs:321-441`. -/
def decodeOptimisedVariantP {V : Type} (e : Entry) (tgt : Nat) (v : VariantIo V) : Prog (EnumVal V) := do
  let body ← Prog.readSized (v.decl.opts.size.getD .inline)
  let fields ← Prog.lift ((decodeAlive e.revision v.decl.fields).within body)
  if v.decl.existsAt tgt then pure ⟨v.decl.ident, fields⟩
  else Prog.lift (v.decl.convert fields e.revision)

/-- Models the enum arms of `__deserialize_after_header`, `/repo/revision-derive/src/expand/de.rs:85-119`
and `optimised/enum_codegen.rs:183-228`. -/
def deserializeEnumBodyP {V : Type} (cfg : Cfg) (e : Entry) (tgt : Nat) (vs : List (VariantIo V)) :
    Prog (EnumVal V) :=
  if e.optimised then do
    let (tag, sc) ← Prog.readOptimisedTag
    match (variantArmsIo vs e.revision).find? (fun a =>
        UInt8.ofNat a.1 == Tag.variantId tag && (a.2.decl.opts.size.getD .inline).cls == sc) with
    | some a => decodeOptimisedVariantP e tgt a.2
    | none => .fail .deserialize
  else do
    let d ← Prog.readU32 cfg
    match (variantArmsIo vs e.revision).find? (fun a => a.1 == d) with
    | some a => decodeLegacyVariantP e tgt a.2
    | none => .fail .deserialize

/-- Models the enum arms of `skip_revisioned`, `/repo/revision-derive/src/expand/skip.rs:22-59` and
`optimised/enum_codegen.rs:234-295`. -/
def skipEnumBodyP {V : Type} (cfg : Cfg) (e : Entry) (tgt : Nat) (vs : List (VariantIo V)) : Prog Unit :=
  if e.optimised then do
    let (tag, sc) ← Prog.readOptimisedTag
    match sc with
    | .inline => pure ()
    | .fixed => Prog.advance (sizeTable (vs.map (·.decl)) e.revision (Tag.variantId tag).toNat)
    | .varlen => do
      let len ← Prog.readVarlenLen
      Prog.advance len
  else do
    let d ← Prog.readU32 cfg
    match (variantArmsIo vs e.revision).find? (fun a => a.1 == d) with
    | some a => skipFieldsP e.revision tgt a.2.fields
    | none => .fail .deserialize

/-- Models `SerializeVariant`, `/repo/revision-derive/src/expand/ser.rs:156-236`, and `emit_enum_serialize`,
`/repo/revision-derive/src/expand/optimised/enum_codegen.rs:73-180`: in an optimised enum the tag is
written before the fields are serialised to the scratch buffer.  (An inline variant has no live fields
and no scratch buffer; here it is empty and unused.) -/
def writeEnumBody {V : Type} (cfg : Cfg) (e : Entry) (vs : List (VariantIo V)) (x : EnumVal V) : Wr :=
  match (variantArmsIo vs e.revision).find? (fun a => a.2.decl.ident == x.variant) with
  | none => .panic
  | some (id, v) =>
    if e.optimised then
      let size := v.decl.opts.size.getD .inline
      (Wr.all [Tag.new (UInt8.ofNat id) size.cls]).andThen
        (.scratch (serializeFields (fun f w => (f.variantWire e).enc w) e.revision v.decl.fields x.fields)
          fun body => match size with
            | .inline => .done
            | .fixed _ => .all body
            | .varlen => .lengthPrefixed body)
    else (Wr.all (encU32 cfg id)).andThen (writeFields e.revision v.fields x.fields)

/-- The impls generated for an enum, `/repo/revision-derive/src/expand/mod.rs:22-292`. -/
def enumIo {V : Type} (cfg : Cfg) (h : List Entry) (vs : List (VariantIo V)) : Io (EnumVal V) :=
  let dec := dispatchRevisionP cfg h (fun e => deserializeEnumBodyP cfg e (latest h) vs)
  { dec := dec
    skip := dispatchRevisionP cfg h (fun e => skipEnumBodyP cfg e (latest h) vs)
    check := dec.discard
    wr := fun x => (Wr.all (encU16 cfg (latest h))).andThen (writeEnumBody cfg (lastEntry h) vs x) }

/-! ### Fields of the supported types -/

/-- The impls of a supported type on arbitrary readers and writers; `ext` gives those of the further
types: the impls of `/repo/src/implementations/mod.rs:1-31`. -/
def Ty.io {ι : Type} (cfg : Cfg) (E : Env ι) (ext : (i : ι) → Io (E.X i)) (t : Ty ι) : Io (t.denote E.X) where
  dec := t.decP cfg E fun i => (ext i).dec
  skip := t.skipP cfg E fun i => (ext i).skip
  check := t.checkP cfg E (fun i => (ext i).dec) fun i => (ext i).check
  wr := t.writes cfg E fun i => (ext i).wr

/-- `encode_*_fixed_le`, `decode_*_fixed_le`, `skip_*_fixed_le`,
`/repo/src/implementations/primitives.rs:661-682`. -/
def fixedIo (n : Nat) : Io (BitVec (8 * n)) where
  dec := Prog.readLE (8 * n) n
  skip := (Prog.readExact n).discard
  check := (Prog.readExact n).discard
  wr v := .all (leBytes n v.toNat)

/-- `#[revision(fixed)]`, as `fixedIntC`: `/repo/src/implementations/primitives.rs:661-690`. -/
def fixedIntIo (cfg : Cfg) : (k : IntTy) → Io (BitVec k.bits)
  | .u32 => fixedIo 4
  | .i32 => fixedIo 4
  | .u64 => fixedIo 8
  | .i64 => fixedIo 8
  | .u128 => fixedIo 16
  | .i128 => fixedIo 16
  | k => ⟨.decInt cfg k, (Prog.decInt cfg k).discard, (Prog.decInt cfg k).discard, fun v => .all (encInt cfg k v)⟩

/-- The `fixed` encoding of a type, as `fixedOf`: `/repo/revision-derive/src/expand/common.rs:131-156`. -/
def fixedIoOf {ι : Type} (cfg : Cfg) (E : Env ι) (ext : (i : ι) → Io (E.X i)) : (t : Ty ι) → Io (t.denote E.X)
  | .int k => fixedIntIo cfg k
  | t => t.io cfg E ext

/-- `#[revision(specialised)]`, as `bulkOf`: `/repo/revision-derive/src/expand/common.rs:206-235`. -/
def bulkIoOf {ι : Type} (cfg : Cfg) (E : Env ι) (ext : (i : ι) → Io (E.X i)) : (t : Ty ι) → Io (t.denote E.X)
  | .vec t =>
    { dec := vecP ⟨cfg.fixedWidth, true⟩ E t (t.io cfg E ext).dec
      skip := vecSkipP ⟨cfg.fixedWidth, true⟩ t (t.io cfg E ext).skip
      check := (vecP ⟨cfg.fixedWidth, true⟩ E t (t.io cfg E ext).dec).discard
      wr := vecW ⟨cfg.fixedWidth, true⟩ E t (t.io cfg E ext).wr }
  | t => t.io cfg E ext

/-- The impls of type `t` on values of all types, as `dynC`:
as a field uses them, `/repo/revision-derive/src/expand/ser.rs:125-146`. -/
def dynIo {ι : Type} [DecidableEq ι] {E : Env ι} (t : Ty ι) (p : Io (t.denote E.X)) : Io (Dyn E) where
  dec := do
    let a ← p.dec
    pure ⟨t, a⟩
  skip := p.skip
  check := p.check
  wr v := match Dyn.proj t v with
    | some a => p.wr a
    | none => .panic

/-! ### Programs -/

section
variable {ι : Type} {K : ι → Kind} [DecidableEq ι]

/-- A field and the impls its type and attributes select:
`/repo/revision-derive/src/expand/ser.rs:125-146` and `/repo/revision-derive/src/expand/de.rs:384-450`. -/
def Field.io (cfg : Cfg) (I : Impls K) (n : Nat) (c : (i : ι) → Codec (Values K n i))
    (ext : (i : ι) → Io (Values K n i)) (f : Field K) : FieldIo (DynAt K n) where
  decl := f.decl cfg I n c
  plain := dynIo (E := I.env n c) f.ty (f.ty.io cfg (I.env n c) ext)
  fixedLe := dynIo (E := I.env n c) f.ty (fixedIoOf cfg (I.env n c) ext f.ty)
  bulk := dynIo (E := I.env n c) f.ty (bulkIoOf cfg (I.env n c) ext f.ty)

/-- A variant and the impls of its fields: `/repo/revision-derive/src/expand/ser.rs:156-236`. -/
def Variant.io (cfg : Cfg) (I : Impls K) (n : Nat) (c : (i : ι) → Codec (Values K n i))
    (ext : (i : ι) → Io (Values K n i)) (v : Variant K) : VariantIo (DynAt K n) where
  decl := v.decl cfg I n c
  fields := v.fields.map (·.io cfg I n c ext)
  same := by rw [List.map_map]; rfl

/-- The impls generated for a derived type, given those its fields use:
`/repo/revision-derive/src/expand/mod.rs:22-292`. -/
def Body.io (cfg : Cfg) (I : Impls K) (n : Nat) (c : (i : ι) → Codec (Values K n i))
    (ext : (i : ι) → Io (Values K n i)) (h : List Entry) :
    {k : Kind} → Body K k → Io (k.values (DynAt K n))
  | _, .struct fs => structIo cfg h (fs.map (·.io cfg I n c ext))
  | _, .enum vs => enumIo cfg h (vs.map (·.io cfg I n c ext))
  | _, .foreign x => x.io

/-- There are no values of depth 0:
the end of the recursion through `/repo/revision-derive/src/expand/de.rs:384-450`. -/
def neverIo : Io Empty := ⟨.fail .deserialize, .fail .deserialize, .fail .deserialize, nofun⟩

/-- The impls of a program on arbitrary readers and writers: `/repo/revision-derive/src/expand/mod.rs:22-292`. -/
def Program.io (cfg : Cfg) (P : Program ι) (I : Impls P.kind) : (n : Nat) → (i : ι) → Io (Values P.kind n i)
  | 0, _ => neverIo
  | n + 1, i => Body.io cfg I n (P.codec cfg I n) (Program.io cfg P I n) (P.history i) (P.body i)

end

end Revision
