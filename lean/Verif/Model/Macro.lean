import Verif.Model.Derive

/-!
# The macro as a whole

Models `revision`, `/repo/revision-derive/src/expand/mod.rs:22-292`: the options of the item, the
passes that check a definition, the errors the code generators can raise, and which implementations
come out.  What the generated code does is `Model/Derive` and `Model/DeriveWalk`.  A definition
arrives as its attributes (`#[revision(..)]` lists), names and types, as `Model/Parse` parses it.
-/

namespace Revision

/-! ### The source -/

/-- Models `enum ItemOption`, `/repo/revision-derive/src/ast/attributes.rs:367-374`, with
`RevisionEntryGroup`, `:377-382`.  Simplification: a number is a `usize` already, so `base10_parse` does not
fail. -/
inductive ItemOption where
  | revision (n : Nat)
  | entry (n : Nat) (os : List EntryOption)
  | serialize (b : Bool) | deserialize (b : Bool) | skip (b : Bool) | walk (b : Bool)
  deriving DecidableEq, Repr

/-- A field as written: `struct Field`, `/repo/revision-derive/src/ast/mod.rs:227-233`, before its
attributes are read.  `ty` is the text of the type's tokens, `attrs` the lists of its `#[revision(..)]`
attributes. -/
structure FieldSrc where
  name : String
  ty : String
  attrs : List (List FieldOption)
  deriving Repr

/-- A variant as written: `struct Variant`, `/repo/revision-derive/src/ast/mod.rs:77-82`. -/
structure VariantSrc where
  ident : String
  attrs : List (List VariantOption)
  fields : List FieldSrc
  deriving Repr

/-- `enum ItemKind`, `/repo/revision-derive/src/ast/mod.rs:35-38`. -/
inductive BodySrc where
  | struct (fields : List FieldSrc)
  | enum (variants : List VariantSrc)
  deriving Repr

/-- An item as written: `args` are those of `#[revisioned(..)]`, `attrs` the lists of the
`#[revision(..)]` attributes below it: what `/repo/revision-derive/src/lib.rs:214-220` is given. -/
structure ItemSrc where
  args : List ItemOption
  attrs : List (List ItemOption)
  body : BodySrc
  deriving Repr

/-! ### Its options -/

/-- Models `struct ItemOptions`, `/repo/revision-derive/src/ast/attributes.rs:343-357`. -/
structure ItemOptions where
  history : List Entry
  serialize : Bool
  deserialize : Bool
  skip : Option Bool
  walk : Option Bool
  deriving DecidableEq, Repr

/-- The local variables of the loop of `ItemOptions::finish`,
`/repo/revision-derive/src/ast/attributes.rs:522-528`. -/
structure ItemAcc where
  revision : Option Nat := none
  entries : List Entry := []
  serialize : Bool := true
  deserialize : Bool := true
  skip : Option Bool := none
  walk : Option Bool := none
  deriving DecidableEq, Repr

/-- One step of that loop, `/repo/revision-derive/src/ast/attributes.rs:530-563`. -/
def ItemAcc.step (a : ItemAcc) : ItemOption → Except MacroErr ItemAcc
  | .revision n => if a.revision.isSome then .error .optionTwice else .ok { a with revision := some n }
  | .entry n os =>
    match buildEntry n os with
    | .ok e => .ok { a with entries := a.entries ++ [e] }
    | .error x => .error x
  | .serialize b => .ok { a with serialize := b }
  | .deserialize b => .ok { a with deserialize := b }
  | .skip b => if a.skip.isSome then .error .optionTwice else .ok { a with skip := some b }
  | .walk b => if a.walk.isSome then .error .optionTwice else .ok { a with walk := some b }

/-- `for option in options { step }`: `/repo/revision-derive/src/ast/attributes.rs:530-563`. -/
def ItemAcc.steps (a : ItemAcc) : List ItemOption → Except MacroErr ItemAcc
  | [] => .ok a
  | x :: xs =>
    match a.step x with
    | .ok a' => a'.steps xs
    | .error e => .error e

/-- Models `ItemOptions::finish`, `/repo/revision-derive/src/ast/attributes.rs:521-578`. -/
def ItemOptions.finish (os : List ItemOption) : Except MacroErr ItemOptions :=
  match ItemAcc.steps {} os with
  | .error e => .error e
  | .ok a =>
    match resolveHistory a.revision a.entries with
    | .error e => .error e
    | .ok h => .ok ⟨h, a.serialize, a.deserialize, a.skip, a.walk⟩

/-! ### The parsed item -/

/-- Models `struct Field`, `/repo/revision-derive/src/ast/mod.rs:227-233`. -/
structure FieldAst where
  name : String
  ty : String
  opts : FieldOptions
  deriving DecidableEq, Repr

/-- Models `struct Variant`, `/repo/revision-derive/src/ast/mod.rs:77-82`. -/
structure VariantAst where
  ident : String
  opts : VariantOptions
  fields : List FieldAst
  deriving DecidableEq, Repr

/-- Models `enum ItemKind`, `/repo/revision-derive/src/ast/mod.rs:35-38`. -/
inductive BodyAst where
  | struct (fields : List FieldAst)
  | enum (variants : List VariantAst)
  deriving DecidableEq, Repr

/-- `exists_at`, `/repo/revision-derive/src/ast/attributes.rs:190-194`. -/
def FieldAst.existsAt (f : FieldAst) (r : Nat) : Bool := Revision.existsAt f.opts.start f.opts.stop r
/-- `exists_at`, `/repo/revision-derive/src/ast/attributes.rs:672-676`. -/
def VariantAst.existsAt (v : VariantAst) (r : Nat) : Bool := Revision.existsAt v.opts.start v.opts.stop r

/-- The variant as the passes over revisions see it: `/repo/revision-derive/src/ast/attributes.rs:654-665`. -/
def VariantAst.sig (v : VariantAst) : VariantSig := ⟨v.ident, v.opts, v.fields.map (·.opts)⟩

/-- `l.map(f).collect::<Result<Vec<_>>>()`: up to the first error:
as in `/repo/revision-derive/src/ast/attributes.rs:464-501`. -/
def collectOk (f : α → Except MacroErr β) : List α → Except MacroErr (List β)
  | [] => .ok []
  | x :: xs =>
    match f x with
    | .error e => .error e
    | .ok y =>
      match collectOk f xs with
      | .error e => .error e
      | .ok ys => .ok (y :: ys)

/-- Models `Field::parse_named` and `parse_unnamed`, `/repo/revision-derive/src/ast/mod.rs:236-266`, and
`FilteredAttributes::parse`, `/repo/revision-derive/src/ast/attributes.rs:138-160`: the options of all
`#[revision(..)]` attributes, one after the other. -/
def parseField (f : FieldSrc) : Except MacroErr FieldAst :=
  match FieldOptions.finish f.attrs.flatten with
  | .error e => .error e
  | .ok o => .ok ⟨f.name, f.ty, o⟩

/-- Models `Variant::parse`, `/repo/revision-derive/src/ast/mod.rs:98-138`. -/
def parseVariant (v : VariantSrc) : Except MacroErr VariantAst :=
  match VariantOptions.finish v.attrs.flatten with
  | .error e => .error e
  | .ok o =>
    match collectOk parseField v.fields with
    | .error e => .error e
    | .ok fs => .ok ⟨v.ident, o, fs⟩

/-- Models `ItemKind::parse`, `/repo/revision-derive/src/ast/mod.rs:40-52`, with `Enum::parse`, `:63-74`, and
`Struct::parse`, `:148-185`. -/
def parseBody : BodySrc → Except MacroErr BodyAst
  | .struct fs =>
    match collectOk parseField fs with
    | .error e => .error e
    | .ok fs => .ok (.struct fs)
  | .enum vs =>
    match collectOk parseVariant vs with
    | .error e => .error e
    | .ok vs => .ok (.enum vs)

/-! ### The passes -/

/-- `for x in l { f(x)? }`: a visitor, `/repo/revision-derive/src/ast/visit.rs:51-92`. -/
def eachOk (f : α → Except MacroErr Unit) : List α → Except MacroErr Unit
  | [] => .ok ()
  | x :: xs =>
    match f x with
    | .ok () => eachOk f xs
    | .error e => .error e

/-- `if !b { return Err(e) }`: as in `/repo/revision-derive/src/expand/validate_version.rs:59-101`. -/
def require (b : Bool) (e : MacroErr) : Except MacroErr Unit := if b then .ok () else .error e

/-- `f()?; g()`: as in `/repo/revision-derive/src/expand/mod.rs:56-58`. -/
def andAlso (x y : Except MacroErr Unit) : Except MacroErr Unit :=
  match x with
  | .ok () => y
  | .error e => .error e

/-- Models `ValidateRevision(revision).visit_item`, `/repo/revision-derive/src/expand/mod.rs:57` and
`/repo/revision-derive/src/expand/validate_version.rs:9-37`. -/
def checkRevisions (revision : Nat) : BodyAst → Except MacroErr Unit
  | .struct fs => require (fs.all fun f => validateField revision f.opts) .usedRevisionTooLarge
  | .enum vs => require (vs.all fun v => validateVariant revision v.sig) .usedRevisionTooLarge

/-- Models `ValidateOptimised(&history).check`,
`/repo/revision-derive/src/expand/validate_version.rs:52-63`. -/
def checkOptimised (h : List Entry) : BodyAst → Except MacroErr Unit
  | .struct _ => .ok ()
  | .enum vs => eachOk (fun e => validateOptimised e.revision (vs.map VariantAst.sig)) (h.filter (·.optimised))

/-- `FIXED_SUPPORTED_INTS`, `/repo/revision-derive/src/expand/common.rs:136`. -/
def fixedInts : List String := ["u32", "i32", "u64", "i64", "u128", "i128"]

/-- The error of `emit_{serialize,deserialize,skip}_fixed_le`,
`/repo/revision-derive/src/expand/common.rs:148-204`, if the field has the option. -/
def fixedField (f : FieldAst) : Except MacroErr Unit := require (!f.opts.fixed || fixedInts.contains f.ty) .fixedType

/-- The `expect("FieldOptions::finish rejects `end` without convert_fn")` of the code for a field that
revision `cur` had and `tgt` has not, `/repo/revision-derive/src/expand/de.rs:184-199`, `:256-272`, `:303-319` and
`/repo/revision-derive/src/expand/optimised/struct_codegen.rs:194-210`, `:224-243`. -/
def convertField (cur tgt : Nat) (f : FieldAst) : Except MacroErr Unit :=
  require (!(f.existsAt cur && !f.existsAt tgt) || f.opts.convert.isSome) .panicked

/-- `discriminants.get(&v.ident).expect(..)`: as in `/repo/revision-derive/src/expand/ser.rs:156-236`. -/
def expectDisc (D : Discs) (v : VariantAst) : Except MacroErr Unit := require (D.lookup v.ident).isSome .panicked

/-- Models `variant_size`, `/repo/revision-derive/src/expand/optimised/enum_codegen.rs:30-38`. -/
def expectSize (v : VariantAst) : Except MacroErr Unit := require v.opts.size.isSome .sizeMissing

/-- `CalcDiscriminant::visit_enum(e)?`, and what follows with the table:
as in `/repo/revision-derive/src/expand/ser.rs:75-99`. -/
def withDiscs (r : Nat) (vs : List VariantAst) (k : Discs → Except MacroErr Unit) : Except MacroErr Unit :=
  match calcDiscs r (vs.map VariantAst.sig) with
  | .error e => .error e
  | .ok D => k D

/-- Models `validate_discriminants`, `/repo/revision-derive/src/expand/optimised/enum_codegen.rs:54-66`. -/
def fiveBits (D : Discs) : Except MacroErr Unit := require (D.all (·.2 < 32)) .discriminantTooLarge

/-- The errors of `SerializeVisitor`, `/repo/revision-derive/src/expand/ser.rs:28-119`, `SerializeFields`,
`:126-148`, `SerializeVariant`, `:156-236`, and `emit_enum_serialize`,
`/repo/revision-derive/src/expand/optimised/enum_codegen.rs:73-180`. -/
def serializeVisit (e : Entry) : BodyAst → Except MacroErr Unit
  | .struct fs => if e.optimised then .ok () else eachOk fixedField (fs.filter (·.existsAt e.revision))
  | .enum vs =>
    let alive := vs.filter (·.existsAt e.revision)
    withDiscs e.revision vs fun D =>
      if e.optimised then
        andAlso (fiveBits D) <| andAlso (require (alive.length ≤ 32) .tooManyVariants) <|
          eachOk (fun v => andAlso (expectDisc D v) <| andAlso (expectSize v) <|
            require (v.opts.size != some .inline || (v.fields.filter (·.existsAt e.revision)).isEmpty)
              .inlineWithFields) alive
      else
        eachOk (fun v => andAlso (expectDisc D v) <|
          eachOk fixedField (v.fields.filter (·.existsAt e.revision))) alive

/-- The errors of `DeserializeVisitor`, `/repo/revision-derive/src/expand/de.rs:84-204`, `DeserializeVariant`,
`:214-376`, `DeserializeFields`, `:384-450`, and `emit_enum_deserialize` and `emit_struct_deserialize`,
`/repo/revision-derive/src/expand/optimised/enum_codegen.rs:183-228`, `:365-376`, `struct_codegen.rs:135-272`. -/
def deserializeVisit (e : Entry) (tgt : Nat) : BodyAst → Except MacroErr Unit
  | .struct fs =>
    if e.optimised then eachOk (convertField e.revision tgt) fs
    else andAlso (eachOk fixedField (fs.filter (·.existsAt e.revision))) (eachOk (convertField e.revision tgt) fs)
  | .enum vs =>
    let alive := vs.filter (·.existsAt e.revision)
    withDiscs e.revision vs fun D =>
      if e.optimised then
        andAlso (fiveBits D) <|
          eachOk (fun v => andAlso (expectDisc D v) <| andAlso (expectSize v) <|
            require (v.existsAt tgt || v.opts.convert.isSome) .convertMissing) alive
      else
        eachOk (fun v => andAlso (eachOk fixedField (v.fields.filter (·.existsAt e.revision))) <|
          andAlso (eachOk (convertField e.revision tgt) v.fields) <| andAlso (expectDisc D v) <|
          require (v.existsAt tgt || v.opts.convert.isSome) .panicked) alive

/-- The errors of `SkipVisitor`, `/repo/revision-derive/src/expand/skip.rs:22-90`, `SkipVariant`, `:100-131`,
`SkipFields`, `:140-194`, and `emit_enum_skip`,
`/repo/revision-derive/src/expand/optimised/enum_codegen.rs:234-258`. -/
def skipVisit (e : Entry) : BodyAst → Except MacroErr Unit
  | .struct fs => if e.optimised then .ok () else eachOk fixedField (fs.filter (·.existsAt e.revision))
  | .enum vs =>
    let alive := vs.filter (·.existsAt e.revision)
    withDiscs e.revision vs fun D =>
      if e.optimised then
        andAlso (fiveBits D) (eachOk (fun v => andAlso (expectDisc D v) (expectSize v)) alive)
      else
        eachOk (fun v => andAlso (eachOk fixedField (v.fields.filter (·.existsAt e.revision))) (expectDisc D v)) alive

/-- Models `HasConvertFn::check`, `/repo/revision-derive/src/expand/common.rs:17-46`. -/
def BodyAst.hasConvert : BodyAst → Bool
  | .struct fs => fs.any (·.opts.convert.isSome)
  | .enum vs => vs.any fun v => v.opts.convert.isSome || v.fields.any (·.opts.convert.isSome)

/-- `format_ident!("decode_{}", name)` and the like, `/repo/revision-derive/src/expand/walk.rs:465-470` and
`:1214-1218`: it panics if the result is not an identifier.  `name` is the `to_string()` of an identifier, which begins
with `r#` if that is a raw one. -/
def methodIdent (name : String) : Except MacroErr Unit := require (!name.toList.contains '#') .panicked

/-- The errors of `emit_walk_impl`, `/repo/revision-derive/src/expand/walk.rs:61-85`, with
`emit_optimised_enum_walker_arm`, `:1651-1689` (an index past the 32 entries of its tables is a panic),
`emit_struct_methods`, `:441-470`, `emit_enum_methods`, `:1185-1218`, and `emit_variant_tables`, `:1518-1524`. -/
def walkVisit (h : List Entry) (serialize deserialize : Bool) (b : BodyAst) : Except MacroErr Unit :=
  andAlso (require (!b.hasConvert || serialize && deserialize) .walkConvert) <|
    match b with
    | .struct fs => eachOk (fun f => methodIdent f.name) (fs.filter (·.existsAt (latest h)))
    | .enum vs =>
      andAlso (eachOk (fun e => withDiscs e.revision vs fun D =>
        eachOk (fun v => andAlso (expectDisc D v) <| andAlso (expectSize v) <|
          require (((D.lookup v.ident).getD 0) < 32) .panicked) (vs.filter (·.existsAt e.revision)))
        (h.filter (·.optimised))) <|
      andAlso (withDiscs (latest h) vs fun D => eachOk (fun v => andAlso (expectDisc D v) <|
        eachOk (fun r => if v.existsAt r then withDiscs r vs fun _ => .ok () else .ok ())
          (List.range' 1 (latest h))) (vs.filter (·.existsAt (latest h)))) <|
      andAlso (eachOk (fun v => methodIdent v.ident) (vs.filter (·.existsAt (latest h)))) <|
      eachOk (fun r => withDiscs r vs fun _ => .ok ()) (List.range' 1 (latest h))

/-! ### The result -/

/-- The implementations the macro can emit: `/repo/revision-derive/src/expand/mod.rs:156-291`. -/
inductive Impl where
  | serialize | deserialize | skip | skipCheck | walk | revisioned
  deriving DecidableEq, Repr

/-- What the macro emits: the item with its options removed (`body` keeps the parsed one for the generated
code), the revisions, and the implementations in order: `/repo/revision-derive/src/expand/mod.rs:205-292`. -/
structure Expansion where
  history : List Entry
  body : BodyAst
  item : BodyAst
  revision : Nat
  impls : List Impl
  deriving DecidableEq, Repr

/-- Models `Reexport`, `/repo/revision-derive/src/expand/reexport.rs:12-167`: the variants and fields that exist
at the current revision. -/
def BodyAst.reexport (r : Nat) : BodyAst → BodyAst
  | .struct fs => .struct (fs.filter (·.existsAt r))
  | .enum vs => .enum ((vs.filter (·.existsAt r)).map fun v => { v with fields := v.fields.filter (·.existsAt r) })

/-- The switches `serialize`, `deserialize`, `skip` and `walk`, and the implementations they turn on,
`/repo/revision-derive/src/expand/mod.rs:116`, `:188-219`, `:221-291`. -/
def ItemOptions.impls (o : ItemOptions) : List Impl :=
  let skip := o.skip.getD o.deserialize
  let walk := o.walk.getD o.deserialize
  (if o.serialize then [.serialize] else []) ++
  (if o.deserialize then [.deserialize] else []) ++
  (if skip then [.skip] else []) ++
  (if skip && o.deserialize then [.skipCheck] else []) ++
  (if walk then [.walk] else []) ++ [.revisioned]

/-- Models `revision`, `/repo/revision-derive/src/expand/mod.rs:22-292`. -/
def expand (s : ItemSrc) : Except MacroErr Expansion := do
  let args ← ItemOptions.finish s.args
  let item ← ItemOptions.finish s.attrs.flatten
  let body ← parseBody s.body
  let h ← itemHistory item.history args.history
  checkRevisions (latest h) body
  checkOptimised h body
  serializeVisit (lastEntry h) body
  eachOk (fun e => deserializeVisit e (latest h) body) h
  if args.skip.getD args.deserialize then eachOk (fun e => skipVisit e body) h
  if args.walk.getD args.deserialize then walkVisit h args.serialize args.deserialize body
  pure ⟨h, body, body.reexport (latest h), latest h, args.impls⟩

end Revision
