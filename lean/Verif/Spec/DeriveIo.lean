import Verif.Model.DeriveIo
import Verif.Spec.Program
import Verif.Spec.Sink
import Verif.Spec.Stream

/-!
# Programs on arbitrary readers and writers: supported declarations
-/

namespace Revision

variable {ι : Type}

/-- `#[revisioned]` is applied to the type. -/
def Kind.Derived : Kind → Prop
  | .foreign _ => False
  | _ => True

/-- The fields data of revision `r` consists of. -/
def Body.fieldsAt {K : ι → Kind} (r : Nat) : {k : Kind} → Body K k → List (Field K)
  | _, .struct fs => fs.filter (·.existsAt r)
  | _, .enum vs => (vs.filter (·.existsAt r)).flatMap fun v => v.fields.filter (·.existsAt r)
  | _, .foreign _ => []

/-- Types written with the legacy encoding have no field that writes a single `bool` itself. -/
def Program.BoolFree (cfg : Cfg) (P : Program ι) : Prop :=
  ∀ i, (lastEntry (P.history i)).optimised = false →
    ∀ f ∈ (P.body i).fieldsAt (lastEntry (P.history i)).revision, f.ty.boolFree cfg = true

/-- Revisions with the legacy encoding have no field that is or holds a `Result` or a `Bound`. -/
def Program.PlainErrors (P : Program ι) : Prop :=
  ∀ i, ∀ e ∈ P.history i, e.optimised = false → ∀ f ∈ (P.body i).fieldsAt e.revision, f.ty.plainErrors = true

/-- All revisions have the legacy encoding. -/
def Program.Legacy (P : Program ι) : Prop := ∀ i, ∀ e ∈ P.history i, e.optimised = false

/-- The user's functions of a field do not return `Error::Io`. -/
def Field.NoIo {K : ι → Kind} (f : Field K) : Prop :=
  (∀ n r, f.dflt n r ≠ .err .io) ∧ ∀ n r a this, f.convert n r a this ≠ .err .io

/-- The user's functions do not return `Error::Io`. -/
def Body.NoIo {K : ι → Kind} : {k : Kind} → Body K k → Prop
  | _, .struct fs => ∀ f ∈ fs, f.NoIo
  | _, .enum vs => ∀ v ∈ vs, (∀ f ∈ v.fields, f.NoIo) ∧ ∀ n fields r, v.convert n fields r ≠ .err .io
  | _, .foreign _ => True

end Revision
