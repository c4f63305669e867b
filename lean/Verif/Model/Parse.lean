import Verif.Model.Macro
import Verif.Model.SizeText

/-!
# Parsing a definition

From the tokens of `#[revisioned(..)]` and of the item below it to the definition, `ItemSrc`: the `Parse` impls of
`/repo/revision-derive/src/ast`.  Of the errors only that there is one is kept.

Simplifications.  What `syn` parses by itself is one token: visibilities, types and generics.  A literal is its value:
`1`, `0x1` and `1usize` are the same number (`base10_parse` ignores the suffix).  The content of attributes that are not
`#[revision(..)]` is arbitrary.  `parse_variant_size` and the `base10_parse` of `revision = N`, which `finish` calls, are
called here.
-/

namespace Revision

/-- Token trees: the tokens of `/repo/revision-derive/src/lib.rs:214-220`. -/
inductive Tok where
  | ident (s : String)
  | int (n : Nat)
  | str (s : String)
  | punct (c : Char)
  | paren (ts : List Tok)
  | bracket (ts : List Tok)
  | brace (ts : List Tok)
  | vis (s : String)
  | type (s : String)
  | generics (s : String)

/-- A `Parse` impl: what it parses and the tokens it leaves:
as `/repo/revision-derive/src/ast/attributes.rs:54-68`. -/
abbrev Parser (α : Type) := List Tok → Option (α × List Tok)

/-- `input.peek(kw::k)`: as in `/repo/revision-derive/src/ast/attributes.rs:212-236`. -/
def peekKw (k : String) : List Tok → Bool
  | .ident s :: _ => s == k
  | _ => false

/-- `input.parse::<kw::k>()`: as in `/repo/revision-derive/src/ast/attributes.rs:60-62`. -/
def parseKw (k : String) : List Tok → Option (List Tok)
  | .ident s :: ts => if s = k then some ts else none
  | _ => none

/-- `input.parse::<Token![c]>()`: as in `/repo/revision-derive/src/ast/attributes.rs:399`. -/
def parsePunct (c : Char) : List Tok → Option (List Tok)
  | .punct d :: ts => if d = c then some ts else none
  | _ => none

/-- Models `SpannedLit::parse`, `/repo/revision-derive/src/ast/attributes.rs:95-110`, at a type with the numbers
below `bound`. -/
def parseInt (bound : Nat) : Parser Nat
  | .int n :: ts => if n < bound then some (n, ts) else none
  | _ => none

/-- `input.parse::<LitStr>()`: in `/repo/revision-derive/src/ast/attributes.rs:200-201`, `:386-387`. -/
def parseStr : Parser String
  | .str s :: ts => some (s, ts)
  | _ => none

/-- `input.parse::<LitBool>()`: in `/repo/revision-derive/src/ast/attributes.rs:370-373`. -/
def parseBool : Parser Bool
  | .ident s :: ts => if s = "true" then some (true, ts) else if s = "false" then some (false, ts) else none
  | _ => none

/-- `parenthesized!(content in input)`: as in `/repo/revision-derive/src/ast/attributes.rs:63`, `:395`. -/
def parseParen : Parser (List Tok)
  | .paren content :: ts => some (content, ts)
  | _ => none

/-- The loop of `Punctuated::parse_terminated`, at most `n` times:
in `/repo/revision-derive/src/ast/attributes.rs:64`, `:127`, `:151`. -/
def terminatedLoop (item : Parser α) : Nat → List Tok → Option (List α)
  | _, [] => some []
  | 0, _ :: _ => none
  | n + 1, ts => do
    let (x, rest) ← item ts
    match rest with
    | [] => pure [x]
    | rest => do
      let rest ← parsePunct ',' rest
      let xs ← terminatedLoop item n rest
      pure (x :: xs)

/-- `content.parse_terminated(item, Token![,])`, which takes all of `content`:
as in `/repo/revision-derive/src/ast/attributes.rs:64`, `:127`. -/
def parseTerminated (item : Parser α) (content : List Tok) : Option (List α) :=
  terminatedLoop item content.length content

/-- Models `ValueOption::parse`, `/repo/revision-derive/src/ast/attributes.rs:69-86`. -/
def valueOption (key : String) (value : Parser α) : Parser α := fun ts => do
  let ts ← parseKw key ts
  let ts ← parsePunct '=' ts
  value ts

/-- Models `GroupOption::parse`, `/repo/revision-derive/src/ast/attributes.rs:44-62`. -/
def groupOption (key : String) (value : Parser α) : Parser (List α) := fun ts => do
  let ts ← parseKw key ts
  let (content, ts) ← parseParen ts
  let xs ← parseTerminated value content
  pure (xs, ts)

/-- A bare keyword: as in `/repo/revision-derive/src/ast/attributes.rs:197-207`, `:231-236`. -/
def flagOption (key : String) : Parser Unit := fun ts => do
  let ts ← parseKw key ts
  pure ((), ts)

/-- `Ok(Self::C(input.parse()?))`: as in `/repo/revision-derive/src/ast/attributes.rs:212-236`. -/
def Parser.map (c : α → β) (p : Parser α) : Parser β := fun ts => do
  let (x, ts) ← p ts
  pure (c x, ts)

/-- The values of a `usize`: in `/repo/revision-derive/src/ast/attributes.rs:384`. -/
def usizeBound : Nat := 2 ^ 64

/-- The values of a `u32`: in `/repo/revision-derive/src/ast/attributes.rs:689-692`. -/
def u32Bound : Nat := 2 ^ 32

/-! ### Options -/

/-- Models `FieldOption::parse`, `/repo/revision-derive/src/ast/attributes.rs:209-241`. -/
def parseFieldOption : Parser FieldOption := fun ts =>
  if peekKw "start" ts then (valueOption "start" (parseInt usizeBound)).map .start ts
  else if peekKw "end" ts then (valueOption "end" (parseInt usizeBound)).map .stop ts
  else if peekKw "convert_fn" ts then (valueOption "convert_fn" parseStr).map .convert ts
  else if peekKw "default_fn" ts then (valueOption "default_fn" parseStr).map .default ts
  else if peekKw "indexed_map" ts then (flagOption "indexed_map").map (fun _ => .indexedMap) ts
  else if peekKw "indexed_seq" ts then (flagOption "indexed_seq").map (fun _ => .indexedSeq) ts
  else if peekKw "indexed_set" ts then (flagOption "indexed_set").map (fun _ => .indexedSet) ts
  else if peekKw "fixed" ts then (flagOption "fixed").map (fun _ => .fixed) ts
  else if peekKw "specialised" ts then (flagOption "specialised").map (fun _ => .specialised) ts
  else none

/-- Models `VariantOverride::parse`, `/repo/revision-derive/src/ast/attributes.rs:722-732`. -/
def parseVariantOverride : Parser VariantOverride := fun ts =>
  if peekKw "discriminant" ts then (valueOption "discriminant" (parseInt u32Bound)).map .discriminant ts
  else if peekKw "revision" ts then (valueOption "revision" (parseInt usizeBound)).map .revision ts
  else none

/-- The text of a size, `parse_variant_size(&x.value)?`, `/repo/revision-derive/src/ast/attributes.rs:775-783`. -/
def parseSize : Parser VariantSize := fun ts => do
  let (s, ts) ← parseStr ts
  let v ← parseVariantSize s.toList
  pure (v, ts)

/-- Models `VariantOption::parse`, `/repo/revision-derive/src/ast/attributes.rs:694-720`. -/
def parseVariantOption : Parser VariantOption := fun ts =>
  if peekKw "start" ts then (valueOption "start" (parseInt usizeBound)).map .start ts
  else if peekKw "end" ts then (valueOption "end" (parseInt usizeBound)).map .stop ts
  else if peekKw "convert_fn" ts then (valueOption "convert_fn" parseStr).map .convert ts
  else if peekKw "default_fn" ts then (valueOption "default_fn" parseStr).map .default ts
  else if peekKw "fields_name" ts then (valueOption "fields_name" parseStr).map .fieldsName ts
  else if peekKw "override" ts then (groupOption "override" parseVariantOverride).map .override ts
  else if peekKw "size" ts then (valueOption "size" parseSize).map .size ts
  else none

/-- Models `RevisionEntryOption::parse`, `/repo/revision-derive/src/ast/attributes.rs:414-432`. -/
def parseEntryOption : Parser EntryOption := fun ts =>
  if peekKw "optimised" ts then (flagOption "optimised").map (fun _ => .optimised) ts
  else if peekKw "map" ts then (valueOption "map" parseStr).map .map ts
  else if peekKw "seq" ts then (valueOption "seq" parseStr).map .seq ts
  else if peekKw "indexed_struct" ts then (flagOption "indexed_struct").map (fun _ => .indexedStruct) ts
  else none

/-- The loop of `RevisionEntryGroup::parse`, `/repo/revision-derive/src/ast/attributes.rs:397-404`, at most `n`
times. -/
def entryOptionsLoop : Nat → List Tok → Option (List EntryOption)
  | _, [] => some []
  | 0, _ :: _ => none
  | n + 1, ts => do
    let ts ← parsePunct ',' ts
    match ts with
    | [] => pure []
    | ts => do
      let (o, ts) ← parseEntryOption ts
      let os ← entryOptionsLoop n ts
      pure (o :: os)

/-- Models `RevisionEntryGroup::parse`, `/repo/revision-derive/src/ast/attributes.rs:391-412`. -/
def parseEntry : Parser ItemOption := fun ts => do
  let ts ← parseKw "revision" ts
  let (content, ts) ← parseParen ts
  let (n, content) ← parseInt usizeBound content
  let os ← entryOptionsLoop content.length content
  pure (.entry n os, ts)

/-- `input.peek2(token::Paren)`: `/repo/revision-derive/src/ast/attributes.rs:438`. -/
def peekParen2 : List Tok → Bool
  | _ :: .paren _ :: _ => true
  | _ => false

/-- Models `ItemOption::parse`, `/repo/revision-derive/src/ast/attributes.rs:434-458`. -/
def parseItemOption : Parser ItemOption := fun ts =>
  if peekKw "revision" ts then
    if peekParen2 ts then parseEntry ts
    else (valueOption "revision" (parseInt usizeBound)).map .revision ts
  else if peekKw "serialize" ts then (valueOption "serialize" parseBool).map .serialize ts
  else if peekKw "deserialize" ts then (valueOption "deserialize" parseBool).map .deserialize ts
  else if peekKw "skip" ts then (valueOption "skip" parseBool).map .skip ts
  else if peekKw "walk" ts then (valueOption "walk" parseBool).map .walk ts
  else none

/-! ### Attributes -/

/-- `input.call(Attribute::parse_outer)`: the contents of the brackets:
`/repo/revision-derive/src/ast/attributes.rs:141`. -/
def parseOuter : List Tok → Option (List (List Tok) × List Tok)
  | .punct '#' :: .bracket content :: ts => do
    let (as, ts) ← parseOuter ts
    pure (content :: as, ts)
  | .punct '#' :: _ => none
  | ts => some ([], ts)

/-- `attr.path().is_ident("revision")`: the path is that one name:
`/repo/revision-derive/src/ast/attributes.rs:145`. -/
def isRevisionAttr : List Tok → Bool
  | .ident _ :: .punct ':' :: _ => false
  | .ident s :: _ => s == "revision"
  | _ => false

/-- `attr.parse_args_with(Punctuated::parse_terminated)`: any delimiters will do:
`/repo/revision-derive/src/ast/attributes.rs:151`. -/
def parseArgs (item : Parser α) : List Tok → Option (List α)
  | [_, .paren ts] => parseTerminated item ts
  | [_, .bracket ts] => parseTerminated item ts
  | [_, .brace ts] => parseTerminated item ts
  | _ => none

/-- The loop of `FilteredAttributes::parse`, `/repo/revision-derive/src/ast/attributes.rs:140-152`. -/
def filterAttrs (item : Parser α) : List (List Tok) → Option (List (List α))
  | [] => some []
  | a :: as =>
    if isRevisionAttr a then do
      let os ← parseArgs item a
      let oss ← filterAttrs item as
      pure (os :: oss)
    else filterAttrs item as

/-- Models `FilteredAttributes::parse`, `/repo/revision-derive/src/ast/attributes.rs:138-160`, without `finish`. -/
def parseAttrs (item : Parser α) : Parser (List (List α)) := fun ts => do
  let (as, ts) ← parseOuter ts
  let oss ← filterAttrs item as
  pure (oss, ts)

/-! ### Items -/

/-- The keywords of Rust, which `Ident::parse` does not accept:
as in `/repo/revision-derive/src/ast/mod.rs:68`, `:101`, `:255`. -/
def keywords : List String :=
  ["_", "abstract", "as", "async", "await", "become", "box", "break", "const", "continue", "crate", "do", "dyn", "else",
    "enum", "extern", "false", "final", "fn", "for", "if", "impl", "in", "let", "loop", "macro", "match", "mod", "move",
    "mut", "override", "priv", "pub", "ref", "return", "Self", "self", "static", "struct", "super", "trait", "true",
    "try", "type", "typeof", "unsafe", "unsized", "use", "virtual", "where", "while", "yield"]

/-- `input.parse::<Ident>()`: in `/repo/revision-derive/src/ast/mod.rs:68`, `:101`, `:255`. -/
def parseIdent : Parser String
  | .ident s :: ts => if keywords.contains s then none else some (s, ts)
  | _ => none

/-- `input.parse::<Visibility>()`: none is one: in `/repo/revision-derive/src/ast/mod.rs:24-32`, `:238`, `:254`. -/
def parseVis : List Tok → List Tok
  | .vis _ :: ts => ts
  | ts => ts

/-- `input.parse::<Generics>()`: none are some.  A `where` clause is not part of them:
in `/repo/revision-derive/src/ast/mod.rs:69`, `:152`. -/
def parseGenerics : List Tok → List Tok
  | .generics _ :: ts => ts
  | ts => ts

/-- `input.parse::<Type>()`: in `/repo/revision-derive/src/ast/mod.rs:241`, `:257`. -/
def parseType : Parser String
  | .type s :: ts => some (s, ts)
  | _ => none

/-- Models `Field::parse_named`, `/repo/revision-derive/src/ast/mod.rs:252-266`. -/
def parseNamed : Parser FieldSrc := fun ts => do
  let (attrs, ts) ← parseAttrs parseFieldOption ts
  let ts := parseVis ts
  let (name, ts) ← parseIdent ts
  let ts ← parsePunct ':' ts
  let (ty, ts) ← parseType ts
  pure (⟨name, ty, attrs⟩, ts)

/-- Models `Field::parse_unnamed`, `/repo/revision-derive/src/ast/mod.rs:236-250`. -/
def parseUnnamed : Parser FieldSrc := fun ts => do
  let (attrs, ts) ← parseAttrs parseFieldOption ts
  let ts := parseVis ts
  let (ty, ts) ← parseType ts
  pure (⟨"field_0", ty, attrs⟩, ts)

/-- `fields.iter_mut().enumerate().for_each(|(idx, f)| f.name = FieldName::Index(idx))`, with the names of
`FieldName::to_binding`, `/repo/revision-derive/src/ast/mod.rs:208-215`. -/
def numberFields (fs : List FieldSrc) : List FieldSrc :=
  fs.mapIdx fun i f => { f with name := "field_" ++ toString i }

/-- The fields of a variant, `/repo/revision-derive/src/ast/mod.rs:101-123`. -/
def parseVariantFields : Parser (List FieldSrc)
  | .paren content :: ts => do
    let fs ← parseTerminated parseUnnamed content
    pure (numberFields fs, ts)
  | .brace content :: ts => do
    let fs ← parseTerminated parseNamed content
    pure (fs, ts)
  | ts => some ([], ts)

/-- Models `Variant::parse`, `/repo/revision-derive/src/ast/mod.rs:98-138`.  The discriminant is parsed if a colon
follows, and begins with `=`, so a colon is an error. -/
def parseVariantSrc : Parser VariantSrc := fun ts => do
  let (attrs, ts) ← parseAttrs parseVariantOption ts
  let (ident, ts) ← parseIdent ts
  let (fields, ts) ← parseVariantFields ts
  match ts with
  | .punct ':' :: ts => do
    let _ ← parsePunct '=' (.punct ':' :: ts)
    none
  | ts => pure (⟨ident, attrs, fields⟩, ts)

/-- Models `Struct::parse`, `/repo/revision-derive/src/ast/mod.rs:148-185`. -/
def parseStruct : Parser BodySrc := fun ts => do
  let ts ← parseKw "struct" ts
  let (_, ts) ← parseIdent ts
  let ts := parseGenerics ts
  match ts with
  | .paren content :: ts => do
    let fs ← parseTerminated parseUnnamed content
    let ts ← parsePunct ';' ts
    pure (.struct (numberFields fs), ts)
  | .brace content :: ts => do
    let fs ← parseTerminated parseNamed content
    pure (.struct fs, ts)
  | ts => do
    let ts ← parsePunct ';' ts
    pure (.struct [], ts)

/-- Models `Enum::parse`, `/repo/revision-derive/src/ast/mod.rs:63-74`. -/
def parseEnum : Parser BodySrc := fun ts => do
  let ts ← parseKw "enum" ts
  let (_, ts) ← parseIdent ts
  let ts := parseGenerics ts
  match ts with
  | .brace content :: ts => do
    let vs ← parseTerminated parseVariantSrc content
    pure (.enum vs, ts)
  | _ => none

/-- Models `ItemKind::parse`, `/repo/revision-derive/src/ast/mod.rs:40-52`. -/
def parseKind : Parser BodySrc := fun ts =>
  if peekKw "enum" ts then parseEnum ts
  else if peekKw "struct" ts then parseStruct ts
  else none

/-- The two `syn::parse2` of `revision`, `/repo/revision-derive/src/expand/mod.rs:23-24`, which leave no tokens, with
`Direct::parse`, `/repo/revision-derive/src/ast/attributes.rs:119-130`, and `Item::parse`,
`/repo/revision-derive/src/ast/mod.rs:24-32`. -/
def parseItem (args item : List Tok) : Option ItemSrc := do
  let args ← parseTerminated parseItemOption args
  let (attrs, ts) ← parseAttrs parseItemOption item
  let (body, ts) ← parseKind (parseVis ts)
  match ts with
  | [] => pure ⟨args, attrs, body⟩
  | _ => none

/-- Models the macro, `revisioned`, `/repo/revision-derive/src/lib.rs:214-220`: `none` is a compile error. -/
def revisioned (args item : List Tok) : Option Expansion := do
  let src ← parseItem args item
  match expand src with
  | .ok x => pure x
  | .error _ => none

end Revision
