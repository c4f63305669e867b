import Verif.Model.Methods

/-!
# When generated methods have different names

Vocabulary for `Verif.Props.Methods`, in terms of the names of fields and variants as written.
-/

namespace Revision

/-- A variant name in the usual style: an upper-case letter, then letters and digits (all ASCII). -/
def UpperCamel (s : String) : Prop :=
  ∃ c cs, s.toList = c :: cs ∧ c.isUpper = true ∧ ∀ d ∈ cs, d.isAlphanum = true

/-- The walker has a method that views the variant. -/
def LiveVariant.Viewed (v : LiveVariant) : Prop := v.form ≠ .unit

/-- What the names of the methods of the variant, other than the view, begin with, in the style of the names of
variants. -/
def LiveVariant.verbs (v : LiveVariant) : List String :=
  if v.form = .other then ["Is"] else ["Is", "Into", "Decode"]

end Revision
