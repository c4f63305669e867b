/-!
# The names of the methods of a generated walker

`#[revisioned(.., walk = true)]` gives the walker of a type one group of methods for each field or variant of the
current revision, with names made from the name of the field or variant.
-/

namespace Revision

/-- The fields of a struct at the current revision, in order: those `emit_struct_methods`,
`/repo/revision-derive/src/expand/walk.rs:447-464`, goes through.  A unit struct is `named []`. -/
inductive LiveFields where
  | named (names : List String)
  | tuple (n : Nat)
  deriving DecidableEq, Repr

/-- Models `field_method_base`, `/repo/revision-derive/src/expand/walk.rs:1153-1161`, for all live fields (the
index counts live fields only). -/
def LiveFields.bases : LiveFields → List String
  | .named names => names
  | .tuple n => (List.range n).map fun i => "field_" ++ Nat.repr i

/-- The names of the methods of one field, `/repo/revision-derive/src/expand/walk.rs:466-470`; all five are
emitted for every field, `:1024-1148`. -/
def fieldMethods (b : String) : List String :=
  ["decode_" ++ b, "skip_" ++ b, "walk_" ++ b, "into_walk_" ++ b, "into_" ++ b ++ "_bytes"]

/-- All methods of the walker of a struct: `revision`, `/repo/revision-derive/src/expand/walk.rs:299-310`, and
those of `emit_struct_methods`, `:441-1151`. -/
def structMethods (fs : LiveFields) : List String :=
  "revision" :: fs.bases.flatMap fieldMethods

/-- The loop of `snake_case` after the first character: `/repo/revision-derive/src/expand/walk.rs:1503-1512`. -/
def snakeTail : List Char → List Char
  | [] => []
  | c :: cs => if c.isUpper then '_' :: c.toLower :: snakeTail cs else c.toLower :: snakeTail cs

/-- Models `snake_case`, `/repo/revision-derive/src/expand/walk.rs:1502-1512`.  Simplification: upper and lower
case of ASCII letters only. -/
def snakeCase (s : String) : String :=
  match s.toList with
  | [] => ""
  | c :: cs => String.ofList (c.toLower :: snakeTail cs)

/-- What the methods of a variant depend on, `/repo/revision-derive/src/expand/walk.rs:1253-1290`, `:1432`: no
fields in the source, a tuple with one field at the current revision, or anything else. -/
inductive VariantForm where
  | unit | newtype | other
  deriving DecidableEq, Repr

/-- A variant of the current revision: `/repo/revision-derive/src/expand/walk.rs:1172-1230`. -/
structure LiveVariant where
  name : String
  form : VariantForm
  deriving DecidableEq, Repr

/-- The methods of one variant: `is_…`, `/repo/revision-derive/src/expand/walk.rs:1229-1251`, and by form `into_…`
and `decode_…`, `:1260-1284`, these and `…_view`, `:1297-1389`, or `…_view`, `:1437-1454`. -/
def variantMethods (v : LiveVariant) : List String :=
  let s := snakeCase v.name
  match v.form with
  | .unit => ["is_" ++ s, "into_" ++ s, "decode_" ++ s]
  | .newtype => ["is_" ++ s, "into_" ++ s, "decode_" ++ s, s ++ "_view"]
  | .other => ["is_" ++ s, s ++ "_view"]

/-- All methods of the walker of an enum: `revision` and `discriminant`,
`/repo/revision-derive/src/expand/walk.rs:274-298`, and those of `emit_enum_methods`, `:1177-1499`. -/
def enumMethods (vs : List LiveVariant) : List String :=
  "revision" :: "discriminant" :: vs.flatMap variantMethods

end Revision
