import Verif.Model.Parse
import Verif.Spec.SchemaVariant

/-!
# The syntax of definitions

The grammar of `#[revisioned(..)]`, of the items below it and of their attributes, as relations between what is
written and its tokens.
-/

namespace Revision

/-- A list of things separated by commas, with or without a comma after the last. -/
inductive CommaList (w : α → List Tok → Prop) : List α → List Tok → Prop where
  | nil : CommaList w [] []
  | last {a ts} : w a ts → CommaList w [a] ts
  | cons {a as ts us} : w a ts → CommaList w as us → CommaList w (a :: as) (ts ++ .punct ',' :: us)

/-- `key = value`. -/
def keyValue (key : String) (value : Tok) : List Tok := [.ident key, .punct '=', value]

/-- `true` and `false`. -/
def boolTok (b : Bool) : Tok := .ident (if b then "true" else "false")

/-- The options of a field; numbers fit their type. -/
inductive FieldOption.Written : FieldOption → List Tok → Prop where
  | start {n} : n < 2 ^ 64 → Written (.start n) (keyValue "start" (.int n))
  | stop {n} : n < 2 ^ 64 → Written (.stop n) (keyValue "end" (.int n))
  | convert {s} : Written (.convert s) (keyValue "convert_fn" (.str s))
  | default {s} : Written (.default s) (keyValue "default_fn" (.str s))
  | indexedMap : Written .indexedMap [.ident "indexed_map"]
  | indexedSeq : Written .indexedSeq [.ident "indexed_seq"]
  | indexedSet : Written .indexedSet [.ident "indexed_set"]
  | fixed : Written .fixed [.ident "fixed"]
  | specialised : Written .specialised [.ident "specialised"]

/-- What an override says. -/
inductive VariantOverride.Written : VariantOverride → List Tok → Prop where
  | discriminant {n} : n < 2 ^ 32 → Written (.discriminant n) (keyValue "discriminant" (.int n))
  | revision {n} : n < 2 ^ 64 → Written (.revision n) (keyValue "revision" (.int n))

/-- The options of a variant; `SizeText` says which texts are sizes (`C86`). -/
inductive VariantOption.Written : VariantOption → List Tok → Prop where
  | start {n} : n < 2 ^ 64 → Written (.start n) (keyValue "start" (.int n))
  | stop {n} : n < 2 ^ 64 → Written (.stop n) (keyValue "end" (.int n))
  | convert {s} : Written (.convert s) (keyValue "convert_fn" (.str s))
  | default {s} : Written (.default s) (keyValue "default_fn" (.str s))
  | fieldsName {s} : Written (.fieldsName s) (keyValue "fields_name" (.str s))
  | override {os ts} : CommaList VariantOverride.Written os ts → Written (.override os) [.ident "override", .paren ts]
  | size {s v} : SizeText s.toList v → Written (.size v) (keyValue "size" (.str s))

/-- The options of a revision. -/
inductive EntryOption.Written : EntryOption → List Tok → Prop where
  | optimised : Written .optimised [.ident "optimised"]
  | map {s} : Written (.map s) (keyValue "map" (.str s))
  | seq {s} : Written (.seq s) (keyValue "seq" (.str s))
  | indexedStruct : Written .indexedStruct [.ident "indexed_struct"]

/-- The options of an item. -/
inductive ItemOption.Written : ItemOption → List Tok → Prop where
  | revision {n} : n < 2 ^ 64 → Written (.revision n) (keyValue "revision" (.int n))
  | number {n} : n < 2 ^ 64 → Written (.entry n []) [.ident "revision", .paren [.int n]]
  | entry {n os ts} : n < 2 ^ 64 → CommaList EntryOption.Written os ts →
      Written (.entry n os) [.ident "revision", .paren (.int n :: .punct ',' :: ts)]
  | serialize {b} : Written (.serialize b) (keyValue "serialize" (boolTok b))
  | deserialize {b} : Written (.deserialize b) (keyValue "deserialize" (boolTok b))
  | skip {b} : Written (.skip b) (keyValue "skip" (boolTok b))
  | walk {b} : Written (.walk b) (keyValue "walk" (boolTok b))

/-- An attribute is for the macro if its path is `revision`. -/
def ForMacro (content : List Tok) : Prop :=
  ∃ ts, content = .ident "revision" :: ts ∧ ∀ us, ts ≠ .punct ':' :: us

/-- Attributes: any number of lists of options for the macro, between others. -/
inductive AttrsWritten (w : α → List Tok → Prop) : List (List α) → List Tok → Prop where
  | nil : AttrsWritten w [] []
  | other {content oss ts} : ¬ ForMacro content → AttrsWritten w oss ts →
      AttrsWritten w oss (.punct '#' :: .bracket content :: ts)
  | list {os us group oss ts} : CommaList w os us → group = .paren us ∨ group = .bracket us ∨ group = .brace us →
      AttrsWritten w oss ts → AttrsWritten w (os :: oss) (.punct '#' :: .bracket [.ident "revision", group] :: ts)

/-- A visibility, or none. -/
def VisWritten (ts : List Tok) : Prop := ts = [] ∨ ∃ s, ts = [.vis s]

/-- Generics, or none. -/
def GenericsWritten (ts : List Tok) : Prop := ts = [] ∨ ∃ s, ts = [.generics s]

/-- Words that cannot be names, by the Rust reference: the strict keywords, those reserved for later, and `_`. -/
def reserved : List String :=
  ["as", "break", "const", "continue", "crate", "else", "enum", "extern", "false", "fn", "for", "if", "impl", "in", "let",
    "loop", "match", "mod", "move", "mut", "pub", "ref", "return", "self", "Self", "static", "struct", "super", "trait",
    "true", "type", "unsafe", "use", "where", "while"] ++
  ["async", "await", "dyn"] ++
  ["abstract", "become", "box", "do", "final", "macro", "override", "priv", "typeof", "unsized", "virtual", "yield", "try"] ++
  ["_"]

/-- `name: Type`. -/
inductive NamedWritten : FieldSrc → List Tok → Prop where
  | mk {attrs as vis name ty} : AttrsWritten FieldOption.Written attrs as → VisWritten vis → name ∉ reserved →
      NamedWritten ⟨name, ty, attrs⟩ (as ++ vis ++ [.ident name, .punct ':', .type ty])

/-- A field of a tuple, whatever its name. -/
inductive UnnamedWritten : FieldSrc → List Tok → Prop where
  | mk {attrs as vis name ty} : AttrsWritten FieldOption.Written attrs as → VisWritten vis →
      UnnamedWritten ⟨name, ty, attrs⟩ (as ++ vis ++ [.type ty])

/-- The fields of a tuple are called `field_0`, `field_1` and so on. -/
def Numbered (fs : List FieldSrc) : Prop := ∀ (i : Nat) (f : FieldSrc), fs[i]? = some f → f.name = "field_" ++ toString i

/-- A variant, without an explicit discriminant. -/
inductive VariantWritten : VariantSrc → List Tok → Prop where
  | unit {attrs as ident} : AttrsWritten VariantOption.Written attrs as → ident ∉ reserved →
      VariantWritten ⟨ident, attrs, []⟩ (as ++ [.ident ident])
  | tuple {attrs as ident fs ts} : AttrsWritten VariantOption.Written attrs as → ident ∉ reserved →
      CommaList UnnamedWritten fs ts → Numbered fs → VariantWritten ⟨ident, attrs, fs⟩ (as ++ [.ident ident, .paren ts])
  | struct {attrs as ident fs ts} : AttrsWritten VariantOption.Written attrs as → ident ∉ reserved →
      CommaList NamedWritten fs ts → VariantWritten ⟨ident, attrs, fs⟩ (as ++ [.ident ident, .brace ts])

/-- A struct or an enum, without a `where` clause. -/
inductive BodyWritten : BodySrc → List Tok → Prop where
  | unit {name g} : name ∉ reserved → GenericsWritten g →
      BodyWritten (.struct []) ([.ident "struct", .ident name] ++ g ++ [.punct ';'])
  | tuple {name g fs ts} : name ∉ reserved → GenericsWritten g → CommaList UnnamedWritten fs ts → Numbered fs →
      BodyWritten (.struct fs) ([.ident "struct", .ident name] ++ g ++ [.paren ts, .punct ';'])
  | struct {name g fs ts} : name ∉ reserved → GenericsWritten g → CommaList NamedWritten fs ts →
      BodyWritten (.struct fs) ([.ident "struct", .ident name] ++ g ++ [.brace ts])
  | enum {name g vs ts} : name ∉ reserved → GenericsWritten g → CommaList VariantWritten vs ts →
      BodyWritten (.enum vs) ([.ident "enum", .ident name] ++ g ++ [.brace ts])

/-- The arguments of the macro and the item below it. -/
structure ItemSrc.Written (s : ItemSrc) (args item : List Tok) : Prop where
  args : CommaList ItemOption.Written s.args args
  item : ∃ as vis body, AttrsWritten ItemOption.Written s.attrs as ∧ VisWritten vis ∧ BodyWritten s.body body ∧
    item = as ++ vis ++ body

end Revision
