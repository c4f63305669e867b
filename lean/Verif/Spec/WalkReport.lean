import Verif.Model.DeriveWalk

/-! # What a derived walker says about the data it walks -/

namespace Revision

variable {V : Type}

/-- Revision `e` of a struct is walked in place: the data has not been converted to the current
revision and has no table of field offsets. -/
def WalkedInPlace (h : List Entry) (fs : List (FieldDecl V)) (e : Entry) : Prop :=
  ((∀ f ∈ fs, f.opts.convert = none) ∨ e.revision = h.length) ∧ (e.optimised = false ∨ e.indexedStruct = false)

/-- Whenever the bytes deserialise, the name that `walk_revisioned_variant_name` gives for the walker's
`revision()` and `discriminant()` is the name of the variant deserialising gives. -/
def WalkNames (cfg : Cfg) (h : List Entry) (vs : List (VariantDecl V)) (s : Bytes) : Prop :=
  ∀ x r, (enumC cfg h vs).dec s = .ok (x, r) →
    ∃ w r', walkEnum cfg h vs s = .ok (w, r') ∧
      variantName h.length (vs.map VariantDecl.sig) (w.revision h.length) w.discriminant = some x.variant

end Revision
