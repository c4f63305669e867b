import Verif.Model.Program

/-!
# Serialisers that count the bytes they buffer

An optimised record is serialised into a buffer first, since its length goes before it:
`/repo/revision-derive/src/expand/optimised/struct_codegen.rs:52-129` and
`/repo/revision-derive/src/expand/optimised/enum_codegen.rs:108-164`; so is every element of an indexed collection:
`/repo/src/optimised/indexed/serialize.rs:214-253`, `:570-646`, `:675-715`.  Everything else is written straight to the
writer.  The serialisers of the model, with a counter of the bytes written to buffers other than the caller's.

Simplifications: the count is that of a serialisation that succeeds; the bits of a `Vec<bool>` packed before they are
written, `/repo/src/implementations/specialised.rs:220-249`, are not counted, and neither is what impls written by hand do.
-/

namespace Revision

/-- What a serialiser gives, with the number of bytes buffered on the way:
`/repo/revision-derive/src/expand/optimised/struct_codegen.rs:52-129`. -/
def Bf (α : Type) := Res (Nat × α)

namespace Bf

/-- Without the counter: `/repo/revision-derive/src/expand/optimised/struct_codegen.rs:52-129`. -/
def erase : Bf α → Res α
  | .ok (_, a) => .ok a
  | .err e => .err e
  | .panic => .panic

/-- Something that buffers nothing: `/repo/revision-derive/src/expand/ser.rs:125-146`. -/
def of : Res α → Bf α
  | .ok a => .ok (0, a)
  | .err e => .err e
  | .panic => .panic

/-- `?` and `;`, adding the counts: `/repo/revision-derive/src/expand/ser.rs:125-146`. -/
instance : Monad Bf where
  pure a := .ok (0, a)
  bind m f := match m with
    | .ok (k, a) => match f a with
      | .ok (l, b) => .ok (k + l, b)
      | .err e => .err e
      | .panic => .panic
    | .err e => .err e
    | .panic => .panic

/-- A serialiser whose writer is a new buffer: `let mut __scratch = Vec::new(); …(&mut __scratch)?`,
`/repo/revision-derive/src/expand/optimised/struct_codegen.rs:58-61`, `/repo/src/optimised/indexed/serialize.rs:219-224`. -/
def buffer : Bf Bytes → Bf Bytes
  | .ok (k, b) => .ok (k + b.length, b)
  | .err e => .err e
  | .panic => .panic

/-- `encList`: as in `/repo/src/implementations/vecs.rs:54-72`. -/
def list (enc : α → Bf Bytes) : List α → Bf Bytes
  | [] => pure []
  | a :: as => do
    let b ← enc a
    let bs ← list enc as
    pure (b ++ bs)

/-- `encEach`: `/repo/src/optimised/indexed/serialize.rs:219-224`, `:680-685`. -/
def each (f : α → Bf β) : List α → Bf (List β)
  | [] => pure []
  | a :: as => do
    let b ← f a
    let bs ← each f as
    pure (b :: bs)

/-- `encPair`: `/repo/src/optimised/indexed/serialize.rs:583-590`. -/
def pair (k : κ → Bf Bytes) (v : ν → Bf Bytes) (e : κ × ν) : Bf (Bytes × Bytes) := do
  let kb ← buffer (k e.1)
  let vb ← buffer (v e.2)
  pure (kb, vb)

/-- `serializeIndexedSeq`: `/repo/src/optimised/indexed/serialize.rs:675-715`. -/
def indexedSeq (enc : α → Bf Bytes) (items : List α) : Bf Bytes := do
  let bodies ← each (fun a => buffer (enc a)) items
  of (writeSeqBodies bodies)

/-- `serializeIndexedSet`: `/repo/src/optimised/indexed/serialize.rs:214-253`. -/
def indexedSet (enc : α → Bf Bytes) (items : List α) : Bf Bytes := do
  let bodies ← each (fun a => buffer (enc a)) items
  of (writeSeqBodies (bodies.mergeSort fun a b => (cmpBytes a b).isLE))

/-- `serializeIndexedEntries`: `/repo/src/optimised/indexed/serialize.rs:570-646`. -/
def indexedEntries (k : κ → Bf Bytes) (v : ν → Bf Bytes) (entries : List (κ × ν)) : Bf Bytes := do
  let pairs ← each (pair k v) entries
  of (writeMapPairs (pairs.mergeSort fun a b => (cmpBytes a.1 b.1).isLE))

/-- A length and the elements, `vecC` and `collC`: `/repo/src/implementations/vecs.rs:54-72`,
`/repo/src/implementations/collections.rs:14-33`. -/
def seq (cfg : Cfg) (enc : α → Bf Bytes) (l : List α) : Bf Bytes := do
  let b ← list enc l
  pure (encLen cfg l.length ++ b)

/-- One after the other, `pairC`: `/repo/src/implementations/tuple.rs:46-75`. -/
def both (k : κ → Bf Bytes) (v : ν → Bf Bytes) (e : κ × ν) : Bf Bytes := do
  let x ← k e.1
  let y ← v e.2
  pure (x ++ y)

/-- `optionC`: `/repo/src/implementations/option.rs:7-22`. -/
def option (cfg : Cfg) (enc : α → Bf Bytes) : Option α → Bf Bytes
  | none => pure (encInt cfg .u8 0)
  | some a => do
    let b ← enc a
    pure (encInt cfg .u8 1 ++ b)

/-- `resultC`: `/repo/src/implementations/result.rs:8-23`. -/
def result (cfg : Cfg) (c : α → Bf Bytes) (d : β → Bf Bytes) : Except β α → Bf Bytes
  | .ok a => do
    let b ← c a
    pure (encU32 cfg 0 ++ b)
  | .error e => do
    let b ← d e
    pure (encU32 cfg 1 ++ b)

/-- `boundC`: `/repo/src/implementations/bound.rs:8-25`. -/
def bound (cfg : Cfg) (enc : α → Bf Bytes) : Bnd α → Bf Bytes
  | .unbounded => pure (encU32 cfg 0)
  | .included a => do
    let b ← enc a
    pure (encU32 cfg 1 ++ b)
  | .excluded a => do
    let b ← enc a
    pure (encU32 cfg 2 ++ b)

end Bf

section
variable {ι : Type}

/-- `vecOf`: `/repo/src/implementations/vecs.rs:21-72`. -/
def bufferedVec (cfg : Cfg) (E : Env ι) (t : Ty ι) (c : Codec (t.denote E.X)) (enc : t.denote E.X → Bf Bytes)
    (l : List (t.denote E.X)) : Bf Bytes :=
  match t with
  | .bool | .int _ | .float _ | .uuid => .of ((vecOf cfg E _ c).enc l)
  | _ => .seq cfg enc l

/-- The serialiser `Ty.codec` selects: `/repo/src/implementations/mod.rs:1-31`; `x` are those of the further types. -/
def Ty.buffered (cfg : Cfg) (E : Env ι) (x : (i : ι) → E.X i → Bf Bytes) : (t : Ty ι) → t.denote E.X → Bf Bytes
  | .option t => .option cfg (t.buffered cfg E x)
  | .result t e => .result cfg (t.buffered cfg E x) (e.buffered cfg E x)
  | .bound t => .bound cfg (t.buffered cfg E x)
  | .wrap t => t.buffered cfg E x
  | .pair s t => .both (s.buffered cfg E x) (t.buffered cfg E x)
  | .array _ t => .list (t.buffered cfg E x)
  | .vec t => bufferedVec cfg E t (t.codec cfg E) (t.buffered cfg E x)
  | .btreeMap k v => .seq cfg (.both (k.buffered cfg E x) (v.buffered cfg E x))
  | .btreeSet k => .seq cfg (k.buffered cfg E x)
  | .hashMap k v => .seq cfg (.both (k.buffered cfg E x) (v.buffered cfg E x))
  | .hashSet k => .seq cfg (k.buffered cfg E x)
  | .binaryHeap t => .seq cfg (t.buffered cfg E x)
  | .vector t => .seq cfg (t.buffered cfg E x)
  | .ext i => x i
  | t => fun v => .of ((t.codec cfg E).enc v)

/-- `fixedOf`: `/repo/src/implementations/primitives.rs:661-690`. -/
def bufferedFixed (cfg : Cfg) (E : Env ι) (x : (i : ι) → E.X i → Bf Bytes) : (t : Ty ι) → t.denote E.X → Bf Bytes
  | .int k => fun v => .of ((fixedIntC cfg k).enc v)
  | t => t.buffered cfg E x

/-- `bulkOf`: `/repo/src/implementations/specialised.rs:15-30`. -/
def bufferedBulk (cfg : Cfg) (E : Env ι) (x : (i : ι) → E.X i → Bf Bytes) : (t : Ty ι) → t.denote E.X → Bf Bytes
  | .vec t => bufferedVec ⟨cfg.fixedWidth, true⟩ E t (t.codec cfg E) (t.buffered cfg E x)
  | t => t.buffered cfg E x

/-- `indexedOf`: `/repo/src/optimised/indexed/serialize.rs:86-345`. -/
def bufferedIndexed (cfg : Cfg) (E : Env ι) (x : (i : ι) → E.X i → Bf Bytes) : (t : Ty ι) → t.denote E.X → Bf Bytes
  | .btreeMap k v => .indexedEntries (k.buffered cfg E x) (v.buffered cfg E x)
  | .hashMap k v => .indexedEntries (k.buffered cfg E x) (v.buffered cfg E x)
  | .vec t => .indexedSeq (t.buffered cfg E x)
  | .vector t => .indexedSeq (t.buffered cfg E x)
  | .btreeSet k => .indexedSet (k.buffered cfg E x)
  | .hashSet k => .indexedSet (k.buffered cfg E x)
  | t => t.buffered cfg E x

end

/-! ### Derived types -/

/-- A field and its serialisers: `/repo/revision-derive/src/ast/mod.rs:226-233`. -/
structure BufferedField (V : Type) where
  decl : FieldDecl V
  plain : V → Bf Bytes
  fixedLe : V → Bf Bytes
  bulk : V → Bf Bytes
  indexed : V → Bf Bytes

/-- A variant and its fields: `/repo/revision-derive/src/ast/mod.rs:76-82`. -/
structure BufferedVariant (V : Type) where
  decl : VariantDecl V
  fields : List (BufferedField V)

section
variable {V : Type}

namespace BufferedField

/-- `FieldDecl.legacyC`: `/repo/revision-derive/src/expand/ser.rs:125-146`. -/
def legacy (f : BufferedField V) : V → Bf Bytes :=
  if f.decl.opts.fixed then f.fixedLe else if f.decl.opts.specialised then f.bulk else f.plain

/-- `FieldDecl.wire`: `/repo/revision-derive/src/expand/optimised/struct_codegen.rs:84-111`. -/
def wire (f : BufferedField V) (e : Entry) : V → Bf Bytes :=
  if e.optimised then (if f.decl.isIndexed then f.indexed else f.plain) else f.legacy

/-- `FieldDecl.variantWire`: `/repo/revision-derive/src/expand/optimised/enum_codegen.rs:116-121`. -/
def variantWire (f : BufferedField V) (e : Entry) : V → Bf Bytes := if e.optimised then f.plain else f.legacy

end BufferedField

/-- `serializeFields`: `/repo/revision-derive/src/expand/ser.rs:118-147`. -/
def bufferedFields (enc : BufferedField V → V → Bf Bytes) (r : Nat) : List (BufferedField V) → List V → Bf Bytes
  | [], _ => pure []
  | f :: fs, this =>
    if f.decl.existsAt r then
      match this with
      | [] => .of .panic
      | v :: vs => do
        let b ← enc f v
        let bs ← bufferedFields enc r fs vs
        pure (b ++ bs)
    else bufferedFields enc r fs this

/-- `serializeIndexedFields`: `/repo/revision-derive/src/expand/optimised/struct_codegen.rs:72-112`. -/
def bufferedIndexedFields (enc : BufferedField V → V → Bf Bytes) (r : Nat) :
    List (BufferedField V) → List V → Nat → Bf (Bytes × Bytes)
  | [], _, _ => pure ([], [])
  | f :: fs, this, pos =>
    if f.decl.existsAt r then
      match this with
      | [] => .of .panic
      | v :: vs => do
        let b ← enc f v
        let (tbl, bs) ← bufferedIndexedFields enc r fs vs (pos + b.length)
        pure (leBytes 4 pos ++ tbl, b ++ bs)
    else bufferedIndexedFields enc r fs this pos

/-- `serializeStructBody`: `/repo/revision-derive/src/expand/optimised/struct_codegen.rs:28-129`. -/
def bufferedStructBody (e : Entry) (fs : List (BufferedField V)) (this : List V) : Bf Bytes :=
  let enc := fun f => BufferedField.wire f e
  if e.optimised then do
    let scratch ← Bf.buffer (
      if e.indexedStruct then do
        let (tbl, bs) ← bufferedIndexedFields enc e.revision fs this (4 * aliveCount (fs.map (·.decl)) e.revision)
        pure (tbl ++ bs)
      else bufferedFields enc e.revision fs this)
    .of (lengthPrefixed scratch)
  else bufferedFields enc e.revision fs this

/-- `variantArms`: `/repo/revision-derive/src/expand/ser.rs:156-236`. -/
def bufferedArms (vs : List (BufferedVariant V)) (r : Nat) : List (Nat × BufferedVariant V) :=
  (vs.filter (·.decl.existsAt r)).filterMap fun v => ((discsAt (vs.map (·.decl)) r).lookup v.decl.ident).map (·, v)

/-- `serializeEnumBody`: `/repo/revision-derive/src/expand/ser.rs:156-236` and
`/repo/revision-derive/src/expand/optimised/enum_codegen.rs:73-180`.  An inline variant has no live fields and no buffer. -/
def bufferedEnumBody (cfg : Cfg) (e : Entry) (vs : List (BufferedVariant V)) (x : EnumVal V) : Bf Bytes :=
  match (bufferedArms vs e.revision).find? (fun a => a.2.decl.ident == x.variant) with
  | none => .of .panic
  | some (id, v) =>
    let fields := bufferedFields (fun f => f.variantWire e) e.revision v.fields x.fields
    if e.optimised then do
      let body ← match v.decl.opts.size.getD .inline with
        | .inline => .of fields.erase
        | .fixed _ | .varlen => Bf.buffer fields
      .of (serializeSized id (v.decl.opts.size.getD .inline) body)
    else do
      let body ← fields
      pure (encU32 cfg id ++ body)

/-- `structC` and `enumC`, the header: `/repo/revision-derive/src/expand/mod.rs:222-235`. -/
def bufferedHeader (cfg : Cfg) (h : List Entry) (body : Bf Bytes) : Bf Bytes := do
  let b ← body
  pure (encU16 cfg (latest h) ++ b)

/-- A serialiser of one type used on values of all types, `Codec.embed`:
`/repo/revision-derive/src/expand/ser.rs:125-146`. -/
def Bf.embed (proj : V → Option α) (enc : α → Bf Bytes) (v : V) : Bf Bytes :=
  match proj v with
  | some a => enc a
  | none => .of .panic

end

/-! ### Programs -/

section
variable {ι : Type} {K : ι → Kind} [DecidableEq ι]

/-- `Field.decl`: `/repo/revision-derive/src/expand/ser.rs:125-146`. -/
def Field.buffered (cfg : Cfg) (I : Impls K) (n : Nat) (c : (i : ι) → Codec (Values K n i))
    (x : (i : ι) → Values K n i → Bf Bytes) (f : Field K) : BufferedField (DynAt K n) where
  decl := f.decl cfg I n c
  plain := .embed (Dyn.proj (E := I.env n c) f.ty) (f.ty.buffered cfg (I.env n c) x)
  fixedLe := .embed (Dyn.proj (E := I.env n c) f.ty) (bufferedFixed cfg (I.env n c) x f.ty)
  bulk := .embed (Dyn.proj (E := I.env n c) f.ty) (bufferedBulk cfg (I.env n c) x f.ty)
  indexed := .embed (Dyn.proj (E := I.env n c) f.ty) (bufferedIndexed cfg (I.env n c) x f.ty)

/-- `Variant.decl`: `/repo/revision-derive/src/expand/ser.rs:156-236`. -/
def Variant.buffered (cfg : Cfg) (I : Impls K) (n : Nat) (c : (i : ι) → Codec (Values K n i))
    (x : (i : ι) → Values K n i → Bf Bytes) (v : Variant K) : BufferedVariant (DynAt K n) :=
  ⟨v.decl cfg I n c, v.fields.map (·.buffered cfg I n c x)⟩

/-- `Body.codec`: `/repo/revision-derive/src/expand/mod.rs:22-292`. -/
def Body.buffered (cfg : Cfg) (I : Impls K) (n : Nat) (c : (i : ι) → Codec (Values K n i))
    (x : (i : ι) → Values K n i → Bf Bytes) (h : List Entry) : {k : Kind} → Body K k → k.values (DynAt K n) → Bf Bytes
  | _, .struct fs, this => bufferedHeader cfg h (bufferedStructBody (lastEntry h) (fs.map (·.buffered cfg I n c x)) this)
  | _, .enum vs, v => bufferedHeader cfg h (bufferedEnumBody cfg (lastEntry h) (vs.map (·.buffered cfg I n c x)) v)
  | _, .foreign i, v => .of (i.codec.enc v)

/-- `Program.codec`: `/repo/revision-derive/src/expand/mod.rs:22-292`. -/
def Program.buffered (cfg : Cfg) (P : Program ι) (I : Impls P.kind) : (n : Nat) → (i : ι) → Values P.kind n i → Bf Bytes
  | 0, _, v => nomatch v
  | n + 1, i, v => Body.buffered cfg I n (P.codec cfg I n) (Program.buffered cfg P I n) (P.history i) (P.body i) v

end

end Revision
