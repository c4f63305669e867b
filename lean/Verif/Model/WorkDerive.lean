import Verif.Model.Work
import Verif.Model.Program

/-!
# Counting the steps of derived readers

The readers of `Verif.Model.Derive`, `Verif.Model.Indexed` and `Verif.Model.Program` again, counting as in
`Verif.Model.Work`: one step for each value of a derived type, and those of its fields.  The user's default and
convert functions count for nothing, and an impl written by hand counts as one step.
-/

namespace Revision

/-- `Rd.within`: a reader on a buffer of its own:
as the payloads of `/repo/revision-derive/src/expand/optimised/struct_codegen.rs:260-267`. -/
def Ct.within (m : Ct α) (buf : Bytes) : Ct α := ⟨fun s => ((m buf).1, match (m buf).2 with
  | .ok (a, _) => .ok (a, s)
  | .err e => .err e
  | .panic => .panic)⟩

variable [Tariff]

namespace Counted

/-- `readIndexedMap`, `/repo/src/optimised/indexed/serialize.rs:728-768` and `:124-154`. -/
def readIndexedMap (pre capK capV : Nat → Bool) (k : Ct κ) (v : Ct ν) (build : List (κ × ν) → List (κ × ν)) :
    Ct (List (κ × ν)) := do
  let flags ← Ct.of Rd.readByte
  let len ← Ct.of readVarint
  Ct.of (Rd.alloc (pre len))
  if flags &&& 1 = 0 then do
    let l ← Ct.readN len (do
      let a ← k
      let b ← v
      pure (a, b))
    pure (build l)
  else do
    let tableBytes ← Ct.of (Rd.lift (checkedMul len 8 .overrun))
    let n ← Ct.of (Rd.lift (addU tableBytes 8))
    Ct.of (Rd.advance n)
    Ct.of (Rd.alloc (capK len))
    let ks ← Ct.readN len k
    Ct.of (Rd.alloc (capV len))
    let vs ← Ct.readN len v
    pure (build (ks.zip vs))

/-- `readIndexedSeq`, `/repo/src/optimised/indexed/serialize.rs:776-802`. -/
def readIndexedSeq (cap : Nat → Bool) (c : Ct α) : Ct (List α) := do
  let flags ← Ct.of Rd.readByte
  let len ← Ct.of readVarint
  if flags &&& 1 = 0 then do
    Ct.of (Rd.alloc (cap len))
    Ct.readN len c
  else do
    let tableBytes ← Ct.of (Rd.lift (checkedMul len 4 .overrun))
    Ct.of (Rd.advance tableBytes)
    Ct.of (Rd.alloc (cap len))
    Ct.readN len c

/-- `skipIndexedMap`, `/repo/src/optimised/indexed/serialize.rs:814-845`. -/
def skipIndexedMap (k v : Ct Unit) : Ct Unit := do
  let flags ← Ct.of Rd.readByte
  let len ← Ct.of readVarint
  if flags &&& 1 = 0 then
    Ct.repeatN len (do
      k
      v)
  else do
    let tableBytes ← Ct.of (Rd.lift (checkedMul len 8 .overrun))
    Ct.of (Rd.advance tableBytes)
    let lens ← Ct.of (Rd.readExact 8)
    Ct.of (Rd.advance (leVal (lens.take 4) + leVal (lens.drop 4)))

/-- `skipIndexedSeq`, `/repo/src/optimised/indexed/serialize.rs:858-888`. -/
def skipIndexedSeq (c : Ct Unit) : Ct Unit := do
  let flags ← Ct.of Rd.readByte
  let len ← Ct.of readVarint
  if flags &&& 1 = 0 then Ct.repeatN len c
  else if len = 0 then pure ()
  else do
    let tableBytes ← Ct.of (Rd.lift (checkedMul len 4 .overrun))
    let table ← Ct.of (Rd.peek tableBytes)
    let lastOff ← Ct.of (Rd.lift (decodeU32At table ((len - 1) * 4)))
    Ct.of (Rd.advance tableBytes)
    Ct.of (Rd.advance lastOff)
    c

/-- `indexedBTreeMapC` and `indexedHashMapC`, `/repo/src/optimised/indexed/serialize.rs:92-158`. -/
def indexedMap (pre capK capV : Nat → Bool) (k : Counted κ) (v : Counted ν) (build : List (κ × ν) → List (κ × ν)) :
    Counted (List (κ × ν)) :=
  let dec := readIndexedMap pre capK capV k.dec v.dec build
  { dec, skip := skipIndexedMap k.skip v.skip, skipS := skipIndexedMap k.skip v.skip, check := dec.discard }

/-- `indexedSeqC`, `/repo/src/optimised/indexed/serialize.rs:174-188`. -/
def indexedSeq (cap : Nat → Bool) (c : Counted α) : Counted (List α) where
  dec := readIndexedSeq cap c.dec
  skip := skipIndexedSeq c.skip
  skipS := skipIndexedSeq c.skip
  check := (readIndexedSeq cap c.dec).discard

/-- `indexedBTreeSetC` and `indexedHashSetC`, `/repo/src/optimised/indexed/serialize.rs:282-314`. -/
def indexedSet (cap : Nat → Bool) (c : Counted α) (build : List α → List α) : Counted (List α) :=
  { indexedSeq cap c with
    dec := do
      let l ← readIndexedSeq cap c.dec
      pure (build l) }

/-- `Codec.embed`: a field of one type among those of `/repo/revision-derive/src/ast/mod.rs:226-233`. -/
def embed (inj : α → V) (c : Counted α) : Counted V where
  dec := do
    let a ← c.dec
    pure (inj a)
  skip := c.skip
  skipS := c.skipS
  check := c.check

end Counted

section
variable {ι : Type}

/-- `fixedOf`, `/repo/src/implementations/primitives.rs:661-690`. -/
def countedFixed (cfg : Cfg) (E : Env ι) (x : (i : ι) → Counted (E.X i)) : (t : Ty ι) → Counted (t.denote E.X)
  | .int k => .leaf (fixedIntC cfg k)
  | t => t.counted cfg E x

/-- `bulkOf`, `/repo/src/implementations/specialised.rs:15-30`. -/
def countedBulk (cfg : Cfg) (E : Env ι) (x : (i : ι) → Counted (E.X i)) : (t : Ty ι) → Counted (t.denote E.X)
  | .vec t => countedVec ⟨cfg.fixedWidth, true⟩ E t (t.counted cfg E x)
  | t => t.counted cfg E x

/-- `indexedOf`, `/repo/src/optimised/indexed/serialize.rs:86-345`. -/
def countedIndexed (cfg : Cfg) (E : Env ι) (x : (i : ι) → Counted (E.X i)) : (t : Ty ι) → Counted (t.denote E.X)
  | .btreeMap k v => .call (.indexedMap (fun _ => true) (E.cap k) (E.cap v) (k.counted cfg E x) (v.counted cfg E x)
      (fun l => l.foldl (btreeInsert (E.cmp k)) []))
  | .hashMap k v => .call (.indexedMap (E.cap (.pair k v)) (E.cap k) (E.cap v) (k.counted cfg E x) (v.counted cfg E x)
      (fun l => l.foldl (hashInsert (E.eq k)) []))
  | .vec t => .call (.indexedSeq (E.cap t) (t.counted cfg E x))
  | .vector t => .call (.indexedSeq (E.cap t) (t.counted cfg E x))
  | .btreeSet k => .call (.indexedSet (E.cap k) (k.counted cfg E x) (btreeBuild (E.cmp k) id))
  | .hashSet k => .call (.indexedSet (E.cap k) (k.counted cfg E x) (fun l => l.foldl (hashSetInsert (E.eq k)) []))
  | t => t.counted cfg E x

end

/-- A field and the impls its attributes select, counted: `/repo/revision-derive/src/ast/mod.rs:226-233`. -/
structure CountedField (V : Type) where
  decl : FieldDecl V
  plain : Counted V
  fixedLe : Counted V
  bulk : Counted V
  indexed : Counted V

section
variable {V : Type}

namespace CountedField

/-- `FieldDecl.legacyC`: `/repo/revision-derive/src/expand/ser.rs:125-146`. -/
def legacy (f : CountedField V) : Counted V :=
  if f.decl.opts.fixed then f.fixedLe else if f.decl.opts.specialised then f.bulk else f.plain

/-- `FieldDecl.wire`: `/repo/revision-derive/src/expand/optimised/struct_codegen.rs:84-111`. -/
def wire (f : CountedField V) (e : Entry) : Counted V :=
  if e.optimised then (if f.decl.isIndexed then f.indexed else f.plain) else f.legacy

/-- `FieldDecl.removedDec`: `/repo/revision-derive/src/expand/de.rs:427-443`. -/
def removedDec (f : CountedField V) (e : Entry) : Ct V := if e.optimised then f.plain.dec else f.legacy.dec

/-- `FieldDecl.legacySkip`: `/repo/revision-derive/src/expand/skip.rs:148-187`. -/
def legacySkip (f : CountedField V) : Ct Unit := if f.decl.opts.fixed then f.fixedLe.skip else f.plain.skip

/-- `FieldDecl.legacySkipS`: `/repo/revision-derive/src/expand/skip.rs:148-187`. -/
def legacySkipS (f : CountedField V) : Ct Unit := if f.decl.opts.fixed then f.fixedLe.skip else f.plain.skipS

end CountedField

/-- `decodeFields`, `/repo/revision-derive/src/expand/de.rs:384-450`. -/
def countedFields (live removed : CountedField V → Ct V) (cur tgt : Nat) :
    List (CountedField V) → Binds V → Ct (Binds V)
  | [], env => pure env
  | f :: fs, env =>
    if f.decl.existsAt tgt && f.decl.existsAt cur then do
      let v ← live f
      countedFields live removed cur tgt fs ((f.decl.name, v) :: env)
    else if f.decl.existsAt tgt && !f.decl.existsAt cur then do
      let v ← Ct.of (Rd.lift (f.decl.dflt cur))
      countedFields live removed cur tgt fs ((f.decl.name, v) :: env)
    else if !f.decl.existsAt tgt && f.decl.existsAt cur then do
      let v ← removed f
      countedFields live removed cur tgt fs ((f.decl.name, v) :: env)
    else countedFields live removed cur tgt fs env

/-- `decodeStructBody`: `/repo/revision-derive/src/expand/de.rs:121-202`. -/
def countedStructBody (live removed : CountedField V → Ct V) (cur tgt : Nat) (fs : List (CountedField V)) :
    Ct (List V) := do
  let env ← countedFields live removed cur tgt fs []
  let this ← Ct.of (Rd.lift (construct tgt env (fs.map (·.decl))))
  Ct.of (Rd.lift (runConverts cur tgt env (fs.map (·.decl)) this))

/-- `deserializeStructBody`, `/repo/revision-derive/src/expand/de.rs:121-202` and
`optimised/struct_codegen.rs:135-272`. -/
def countedStruct (e : Entry) (tgt : Nat) (fs : List (CountedField V)) : Ct (List V) :=
  let body := countedStructBody (fun f => (f.wire e).dec) (fun f => f.removedDec e) e.revision tgt fs
  if e.optimised then do
    let payload ← Ct.of readLengthPrefixed
    Ct.tick (Tariff.copy * payload.length)
    if e.indexedStruct then
      if payload.length < 4 * aliveCount (fs.map (·.decl)) e.revision then Ct.of (Rd.fail .overrun)
      else body.within (payload.drop (4 * aliveCount (fs.map (·.decl)) e.revision))
    else body.within payload
  else body

/-- `skipFields`, `/repo/revision-derive/src/expand/skip.rs:133-194`. -/
def countedSkipFields (skip : CountedField V → Ct Unit) (cur tgt : Nat) : List (CountedField V) → Ct Unit
  | [] => pure ()
  | f :: fs =>
    if f.decl.existsAt tgt && f.decl.existsAt cur then do
      skip f
      countedSkipFields skip cur tgt fs
    else if f.decl.existsAt tgt && !f.decl.existsAt cur then countedSkipFields skip cur tgt fs
    else if !f.decl.existsAt tgt && f.decl.existsAt cur then do
      skip f
      countedSkipFields skip cur tgt fs
    else countedSkipFields skip cur tgt fs

/-- `skipStructBody`, with `adv = advance_read`, and `skipSStructBody`, with `adv = SliceReader::consume`:
`/repo/revision-derive/src/expand/skip.rs:61-89` and
`/repo/revision-derive/src/expand/optimised/struct_codegen.rs:276-294`. -/
def countedSkipStruct (adv : Nat → Rd Unit) (skip : CountedField V → Ct Unit) (e : Entry) (tgt : Nat)
    (fs : List (CountedField V)) : Ct Unit :=
  if e.optimised then do
    let len ← Ct.of readVarlenLen
    Ct.of (adv len)
  else countedSkipFields skip e.revision tgt fs

/-- `dispatchRevision`, `/repo/revision-derive/src/expand/mod.rs:158-178` and `:245-253`. -/
def countedDispatch (cfg : Cfg) (h : List Entry) (arm : Entry → Ct α) : Ct α := do
  let r ← Ct.of (readU16 cfg)
  match h.find? (fun e => e.revision == r) with
  | some e => arm e
  | none => Ct.of (Rd.fail .deserialize)

/-- A variant and its fields, counted: `/repo/revision-derive/src/ast/mod.rs:76-82`. -/
structure CountedVariant (V : Type) where
  decl : VariantDecl V
  fields : List (CountedField V)

/-- `decodeLegacyVariant`, `/repo/revision-derive/src/expand/de.rs:214-376`. -/
def countedLegacyVariant (e : Entry) (tgt : Nat) (v : CountedVariant V) : Ct (EnumVal V) := do
  let fields ← countedStructBody (fun f => f.legacy.dec) (fun f => f.legacy.dec) e.revision tgt v.fields
  if v.decl.existsAt tgt then pure ⟨v.decl.ident, fields⟩
  else Ct.of (Rd.lift (v.decl.convert fields e.revision))

/-- `decodeAlive`, `/repo/revision-derive/src/expand/optimised/enum_codegen.rs:350-357`. -/
def countedAlive (r : Nat) : List (CountedField V) → Ct (List V)
  | [] => pure []
  | f :: fs =>
    if f.decl.existsAt r then do
      let v ← f.plain.dec
      let vs ← countedAlive r fs
      pure (v :: vs)
    else countedAlive r fs

/-- `decodeOptimisedVariant`, `/repo/revision-derive/src/expand/optimised/enum_codegen.rs:321-441`. -/
def countedOptimisedVariant (e : Entry) (tgt : Nat) (v : CountedVariant V) : Ct (EnumVal V) := do
  let body ← Ct.of (readSized (v.decl.opts.size.getD .inline))
  Ct.tick (Tariff.copy * body.length)
  let fields ← (countedAlive e.revision v.fields).within body
  if v.decl.existsAt tgt then pure ⟨v.decl.ident, fields⟩
  else Ct.of (Rd.lift (v.decl.convert fields e.revision))

/-- `variantArms`: `/repo/revision-derive/src/expand/de.rs:85-119`. -/
def countedArms (vs : List (CountedVariant V)) (r : Nat) : List (Nat × CountedVariant V) :=
  (vs.filter (·.decl.existsAt r)).filterMap fun v => ((discsAt (vs.map (·.decl)) r).lookup v.decl.ident).map (·, v)

/-- `deserializeEnumBody`, `/repo/revision-derive/src/expand/de.rs:85-119` and `optimised/enum_codegen.rs:183-228`. -/
def countedEnum (cfg : Cfg) (e : Entry) (tgt : Nat) (vs : List (CountedVariant V)) : Ct (EnumVal V) :=
  if e.optimised then do
    let (tag, sc) ← Ct.of readOptimisedTag
    match (countedArms vs e.revision).find? (fun a =>
        UInt8.ofNat a.1 == tag.variantId && (a.2.decl.opts.size.getD .inline).cls == sc) with
    | some a => countedOptimisedVariant e tgt a.2
    | none => Ct.of (Rd.fail .deserialize)
  else do
    let d ← Ct.of (readU32 cfg)
    match (countedArms vs e.revision).find? (fun a => a.1 == d) with
    | some a => countedLegacyVariant e tgt a.2
    | none => Ct.of (Rd.fail .deserialize)

/-- `skipEnumBody`, `/repo/revision-derive/src/expand/skip.rs:22-59` and `optimised/enum_codegen.rs:234-295`. -/
def countedSkipEnum (cfg : Cfg) (adv : Nat → Rd Unit) (skip : CountedField V → Ct Unit) (e : Entry) (tgt : Nat)
    (vs : List (CountedVariant V)) : Ct Unit :=
  if e.optimised then do
    let (tag, sc) ← Ct.of readOptimisedTag
    match sc with
    | .inline => pure ()
    | .fixed => Ct.of (adv (sizeTable (vs.map (·.decl)) e.revision tag.variantId.toNat))
    | .varlen => do
      let len ← Ct.of readVarlenLen
      Ct.of (adv len)
  else do
    let d ← Ct.of (readU32 cfg)
    match (countedArms vs e.revision).find? (fun a => a.1 == d) with
    | some a => countedSkipFields skip e.revision tgt a.2.fields
    | none => Ct.of (Rd.fail .deserialize)

/-- `structC`, `/repo/revision-derive/src/expand/mod.rs:22-292`. -/
def countedStructC (cfg : Cfg) (h : List Entry) (fs : List (CountedField V)) : Counted (List V) :=
  let dec := countedDispatch cfg h (fun e => countedStruct e (latest h) fs)
  { dec
    skip := countedDispatch cfg h (fun e => countedSkipStruct Rd.advance CountedField.legacySkip e (latest h) fs)
    skipS := countedDispatch cfg h (fun e => countedSkipStruct Rd.consume CountedField.legacySkipS e (latest h) fs)
    check := dec.discard }

/-- `enumC`, `/repo/revision-derive/src/expand/mod.rs:22-292`. -/
def countedEnumC (cfg : Cfg) (h : List Entry) (vs : List (CountedVariant V)) : Counted (EnumVal V) :=
  let dec := countedDispatch cfg h (fun e => countedEnum cfg e (latest h) vs)
  { dec
    skip := countedDispatch cfg h (fun e => countedSkipEnum cfg Rd.advance CountedField.legacySkip e (latest h) vs)
    skipS := countedDispatch cfg h (fun e => countedSkipEnum cfg Rd.consume CountedField.legacySkipS e (latest h) vs)
    check := dec.discard }

end

/-! ### Programs -/

section
variable {ι : Type} {K : ι → Kind} [DecidableEq ι]

/-- `Field.decl`, with the impls counted: `x` are the counted impls of the derived types:
`/repo/revision-derive/src/expand/de.rs:384-450`. -/
def Field.counted (cfg : Cfg) (I : Impls K) (n : Nat) (c : (i : ι) → Codec (Values K n i))
    (x : (i : ι) → Counted (Values K n i)) (f : Field K) : CountedField (DynAt K n) where
  decl := f.decl cfg I n c
  plain := (f.ty.counted cfg (I.env n c) x).embed fun a => ⟨f.ty, a⟩
  fixedLe := (countedFixed cfg (I.env n c) x f.ty).embed fun a => ⟨f.ty, a⟩
  bulk := (countedBulk cfg (I.env n c) x f.ty).embed fun a => ⟨f.ty, a⟩
  indexed := (countedIndexed cfg (I.env n c) x f.ty).embed fun a => ⟨f.ty, a⟩

/-- `Variant.decl`, counted: `/repo/revision-derive/src/expand/de.rs:214-376`. -/
def Variant.counted (cfg : Cfg) (I : Impls K) (n : Nat) (c : (i : ι) → Codec (Values K n i))
    (x : (i : ι) → Counted (Values K n i)) (v : Variant K) : CountedVariant (DynAt K n) :=
  ⟨v.decl cfg I n c, v.fields.map (·.counted cfg I n c x)⟩

/-- `Body.codec`, counted: `/repo/revision-derive/src/expand/mod.rs:22-292`. -/
def Body.counted (cfg : Cfg) (I : Impls K) (n : Nat) (c : (i : ι) → Codec (Values K n i))
    (x : (i : ι) → Counted (Values K n i)) (h : List Entry) : {k : Kind} → Body K k → Counted (k.values (DynAt K n))
  | _, .struct fs => .call (countedStructC cfg h (fs.map (·.counted cfg I n c x)))
  | _, .enum vs => .call (countedEnumC cfg h (vs.map (·.counted cfg I n c x)))
  | _, .foreign i => .leaf i.codec

/-- `Program.codec`, counted: `/repo/revision-derive/src/expand/mod.rs:22-292`. -/
def Program.counted (cfg : Cfg) (P : Program ι) (I : Impls P.kind) : (n : Nat) → (i : ι) → Counted (Values P.kind n i)
  | 0, _ => .leaf neverC
  | n + 1, i => Body.counted cfg I n (P.codec cfg I n) (Program.counted cfg P I n) (P.history i) (P.body i)

end

end Revision
