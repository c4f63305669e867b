import Verif.Model.Program

/-!
# The buffers of optimised payloads

The decoders of optimised structs and enums allocate a buffer for the payload before they read it.
`Program.codec` leaves these requests out; here they are made to the allocator, as those of the
collections are.  `C94_buffers` in `Props/Payload.lean` relates the two.
-/

namespace Revision

/-- `vec![0u8; __byte_len]` between the two `read_exact`,
`/repo/revision-derive/src/expand/optimised/struct_codegen.rs:260-267` and
`/repo/revision-derive/src/expand/optimised/enum_codegen.rs:342-349`. -/
def readLengthPrefixedBuf (cap : Nat → Bool) : Rd Bytes := do
  let len ← readVarlenLen
  Rd.alloc (cap len)
  Rd.readExact len

/-- Models `emit_struct_deserialize`, `/repo/revision-derive/src/expand/optimised/struct_codegen.rs:135-272`,
and for the other revisions `/repo/revision-derive/src/expand/de.rs:121-202`, as `deserializeStructBody` does. -/
def deserializeStructBodyBuf {V : Type} (cap : Nat → Bool) (e : Entry) (tgt : Nat) (fs : List (FieldDecl V)) :
    Rd (List V) :=
  let body := decodeStructBody (fun f => (f.wire e).dec) (fun f => f.removedDec e) e.revision tgt fs
  if e.optimised then do
    let payload ← readLengthPrefixedBuf cap
    if e.indexedStruct then
      if payload.length < 4 * aliveCount fs e.revision then Rd.fail .overrun
      else Rd.lift (body.within (payload.drop (4 * aliveCount fs e.revision)))
    else Rd.lift (body.within payload)
  else body

/-- The buffer a variant's body is decoded from,
`/repo/revision-derive/src/expand/optimised/enum_codegen.rs:331-351`. -/
def readSizedBuf (cap : Nat → Bool) (size : VariantSize) : Rd Bytes :=
  match size with
  | .inline => pure []
  | .fixed n => do
    Rd.alloc (cap n)
    Rd.readExact n
  | .varlen => readLengthPrefixedBuf cap

/-- Models `decode_variant_body`,
`/repo/revision-derive/src/expand/optimised/enum_codegen.rs:321-441`, as `decodeOptimisedVariant` does. -/
def decodeOptimisedVariantBuf {V : Type} (cap : Nat → Bool) (e : Entry) (tgt : Nat) (v : VariantDecl V) :
    Rd (EnumVal V) := do
  let body ← readSizedBuf cap (v.opts.size.getD .inline)
  let fields ← Rd.lift ((decodeAlive e.revision v.fields).within body)
  if v.existsAt tgt then pure ⟨v.ident, fields⟩
  else Rd.lift (v.convert fields e.revision)

/-- Models `emit_enum_deserialize`, `/repo/revision-derive/src/expand/optimised/enum_codegen.rs:183-228`,
and for the other revisions `/repo/revision-derive/src/expand/de.rs:85-119`, as `deserializeEnumBody` does. -/
def deserializeEnumBodyBuf {V : Type} (cfg : Cfg) (cap : Nat → Bool) (e : Entry) (tgt : Nat)
    (vs : List (VariantDecl V)) : Rd (EnumVal V) :=
  if e.optimised then do
    let (tag, sc) ← readOptimisedTag
    match (variantArms vs e.revision).find? (fun a =>
        UInt8.ofNat a.1 == tag.variantId && (a.2.opts.size.getD .inline).cls == sc) with
    | some a => decodeOptimisedVariantBuf cap e tgt a.2
    | none => Rd.fail .deserialize
  else do
    let d ← readU32 cfg
    match (variantArms vs e.revision).find? (fun a => a.1 == d) with
    | some a => decodeLegacyVariant e tgt a.2
    | none => Rd.fail .deserialize

/-- The impls generated for a struct, with the payload's buffer requested:
`/repo/revision-derive/src/expand/mod.rs:22-292`. -/
def structBufC {V : Type} (cfg : Cfg) (cap : Nat → Bool) (h : List Entry) (fs : List (FieldDecl V)) :
    Codec (List V) :=
  let dec := dispatchRevision cfg h (fun e => deserializeStructBodyBuf cap e (latest h) fs)
  { structC cfg h fs with dec := dec, check := dec.discard }

/-- The impls generated for an enum, with the bodies' buffers requested:
`/repo/revision-derive/src/expand/mod.rs:22-292`. -/
def enumBufC {V : Type} (cfg : Cfg) (cap : Nat → Bool) (h : List Entry) (vs : List (VariantDecl V)) :
    Codec (EnumVal V) :=
  let dec := dispatchRevision cfg h (fun e => deserializeEnumBodyBuf cfg cap e (latest h) vs)
  { enumC cfg h vs with dec := dec, check := dec.discard }

section
variable {ι : Type} {K : ι → Kind} [DecidableEq ι]

/-- The impls generated for a derived type, given those its fields use, with all buffers requested from
the allocator: `/repo/revision-derive/src/expand/mod.rs:22-292`. -/
def Body.bufCodec (cfg : Cfg) (I : Impls K) (n : Nat) (c : (i : ι) → Codec (Values K n i)) (h : List Entry) :
    {k : Kind} → Body K k → Codec (k.values (DynAt K n))
  | _, .struct fs => structBufC cfg (I.cap (.int .u8)) h (fs.map (·.decl cfg I n c))
  | _, .enum vs => enumBufC cfg (I.cap (.int .u8)) h (vs.map (·.decl cfg I n c))
  | _, .foreign x => x.codec

end

/-- The impls of a program, with all buffers requested from the allocator:
`/repo/revision-derive/src/expand/mod.rs:22-292`. -/
def Program.bufCodec {ι : Type} [DecidableEq ι] (cfg : Cfg) (P : Program ι) (I : Impls P.kind) :
    (n : Nat) → (i : ι) → Codec (Values P.kind n i)
  | 0, _ => neverC
  | n + 1, i => Body.bufCodec cfg I n (Program.bufCodec cfg P I n) (P.history i) (P.body i)

end Revision
