import Verif.Spec.Value

/-!
# Writing values of a program
-/

namespace Revision

/-- Writing succeeded or, if something may be too big for its format, was refused for that. -/
def Written (big : Bool) (r : Res α) : Prop := (∃ a, r = .ok a) ∨ big = true ∧ r = .err .serialize

variable {ι : Type}

/-- The macro accepts the enum, and values of types with impls written by hand can be written. -/
def Body.Complete {K : ι → Kind} (big : Bool) (e : Entry) : {k : Kind} → Body K k → Prop
  | _, .struct _ => True
  | _, .enum vs => AcceptedSigs e (vs.map Variant.sig)
  | _, .foreign x => ∀ a, x.codec.valid a → Written big (x.codec.enc a)

/-- The same of all types of a program. -/
structure Program.Complete (big : Bool) (P : Program ι) : Prop where
  history : ∀ i, ValidHistory (P.history i)
  body : ∀ i, (P.body i).Complete big (lastEntry (P.history i))

/-- No type of the program is written in an optimised format. -/
def Program.WritesLegacy (P : Program ι) : Prop := ∀ i, (lastEntry (P.history i)).optimised = false

end Revision
