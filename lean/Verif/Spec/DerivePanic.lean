import Verif.Spec.DeriveWalk

/-! Parts supplied by the user of the macro that do not panic. -/

namespace Revision

variable {V : Type}

/-- One of the field's decoders gives this value. -/
def FieldDecl.Decodable (f : FieldDecl V) (v : V) : Prop :=
  ∃ s rest, f.plain.dec s = .ok (v, rest) ∨ f.fixedLe.dec s = .ok (v, rest) ∨ f.bulk.dec s = .ok (v, rest)

/-- Neither the impls of the field's type nor its default and convert functions panic. -/
structure FieldDecl.Safe (f : FieldDecl V) : Prop where
  plain : f.plain.PanicFree
  plainS : f.plain.skipS.NoPanic
  fixedLe : f.fixedLe.PanicFree
  bulk : f.bulk.PanicFree
  indexed : f.isIndexed = true → f.indexed.PanicFree
  dflt : ∀ r, f.dflt r ≠ .panic
  convert : ∀ r v this, f.Decodable v → f.convert r v this ≠ .panic

/-- One of the decoders of the variant's fields gives these values. -/
def VariantDecl.Decodable (v : VariantDecl V) (fields : List V) : Prop :=
  ∃ s rest, (∃ e tgt, decodeStructBody (fun f => f.legacyC.dec) (fun f => f.legacyC.dec) e tgt v.fields s =
      .ok (fields, rest)) ∨ ∃ e, decodeAlive e v.fields s = .ok (fields, rest)

/-- The same for the fields of a variant and, if the variant has been removed, its convert
function. -/
structure VariantDecl.Safe (latest : Nat) (v : VariantDecl V) : Prop where
  fields : ∀ f ∈ v.fields, f.Safe
  convert : v.existsAt latest = false → ∀ fields r, v.Decodable fields → v.convert fields r ≠ .panic

/-- A codec none of whose readers panics on any bytes. -/
structure Codec.NeverPanics (c : Codec α) : Prop where
  dec : ∀ s, c.dec s ≠ .panic
  skip : ∀ s, c.skip s ≠ .panic
  skipS : ∀ s, c.skipS s ≠ .panic
  check : ∀ s, c.check s ≠ .panic

end Revision
