import Verif.Model.Program

/-! # The revision a type reports -/

namespace Revision

/-- Models `Revisioned::revision` and the constant `REVISION` of a derived type,
`/repo/revision-derive/src/expand/mod.rs:280-291`: the literal the serialiser writes too, `:29-54`. -/
def Program.revision (P : Program ι) (i : ι) : Nat := latest (P.history i)

/-- Models `Revisioned::revision`, `/repo/src/lib.rs:139-142`, of the supported types: every impl of
`/repo/src/implementations/` answers 1, such as `boxes.rs:32-34`, `option.rs:43-45` and `vecs.rs:138-140`, except
`Cow`, `cow.rs:36-38`, which asks the type it borrows and is left out here; `ext` answers for the further types. -/
def Ty.revision (ext : ι → Nat) : Ty ι → Nat
  | .ext i => ext i
  | _ => 1

end Revision
