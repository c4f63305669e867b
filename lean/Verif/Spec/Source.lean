import Verif.Spec.Macro
import Verif.Spec.Program

/-! # Programs written in source: vocabulary for `C99` -/

namespace Revision

variable {ι : Type} {K : ι → Kind}

/-- Names and options of the fields or of the variants and their fields; nothing of a type with impls written by
hand. -/
inductive Outline where
  | struct (fields : List (String × FieldOptions))
  | enum (variants : List (String × VariantOptions × List (String × FieldOptions)))
  | foreign

def BodyAst.outline : BodyAst → Outline
  | .struct fs => .struct (fs.map fun f => (f.name, f.opts))
  | .enum vs => .enum (vs.map fun v => (v.ident, v.opts, v.fields.map fun f => (f.name, f.opts)))

def Body.outline : {k : Kind} → Body K k → Outline
  | _, .struct fs => .struct (fs.map fun f => (f.name, f.opts))
  | _, .enum vs => .enum (vs.map fun v => (v.ident, v.opts, v.fields.map fun f => (f.name, f.opts)))
  | _, .foreign _ => .foreign

/-- The types of the program are written as the definitions `src`, all of which the macro accepts, or have impls
written by hand. -/
def Program.WrittenAs (P : Program ι) (src : ι → ItemSrc) : Prop :=
  ∀ i, (∃ x, expand (src i) = .ok x ∧ P.history i = x.history ∧ (P.body i).outline = x.body.outline) ∨
    (P.body i).outline = .foreign ∧ ValidHistory (P.history i)

/-- The numbers in the definition are of the types the macro parses them as, and the variants can be counted in
32 bits. -/
def Body.Fits : {k : Kind} → Body K k → Prop
  | _, .struct _ => True
  | _, .enum vs => vs.length ≤ 2 ^ 32 ∧
      ∀ v ∈ vs, ∀ p ∈ v.opts.overrides, ∀ d, p.2 = some d → d < 2 ^ 32
  | _, .foreign _ => True

/-- The names of what is alive at `cur` or `tgt` are different; the compiler sees to it for what is alive now. -/
def Body.Distinct (cur tgt : Nat) : {k : Kind} → Body K k → Prop
  | _, .struct fs => DistinctFieldNames fs cur tgt
  | _, .enum vs => ((vs.filter (·.existsAt cur)).map (·.ident)).Nodup ∧
      ∀ v ∈ vs, v.existsAt cur = true → DistinctFieldNames v.fields cur tgt
  | _, .foreign _ => True

/-- No field has the option `specialised`. -/
def Body.NoBulk : {k : Kind} → Body K k → Prop
  | _, .struct fs => ∀ f ∈ fs, f.opts.specialised = false
  | _, .enum vs => ∀ v ∈ vs, ∀ f ∈ v.fields, f.opts.specialised = false
  | _, .foreign _ => True

/-- Between an optimised entry `e` and revision `tgt` no indexed field of a struct goes and no fields of a live
variant come or go (`C50_removed_indexed_false`, `C54_optimised_fields_false`). -/
def Body.Stable (e : Entry) (tgt : Nat) : {k : Kind} → Body K k → Prop
  | _, .struct fs => e.optimised = true → ∀ f ∈ fs, f.existsAt e.revision = true → f.existsAt tgt = false →
      f.isIndexed = false
  | _, .enum vs => e.optimised = true → ∀ v ∈ vs, v.existsAt e.revision = true → ∀ f ∈ v.fields,
      f.existsAt tgt = f.existsAt e.revision
  | _, .foreign _ => True

end Revision
