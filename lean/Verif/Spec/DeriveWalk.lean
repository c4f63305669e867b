import Verif.Model.DeriveWalk
import Verif.Spec.Derive

/-! Programs that use the generated walkers. -/

namespace Revision

variable {V : Type}

/-- Call `decode_<field>` for each field in turn. -/
def decodeEach (idx : Nat) : List (FieldDecl V) → StructRepr → Rd (List V)
  | [], _ => pure []
  | f :: fs, w => do
    let (v, w') ← w.decodeField idx f
    let vs ← decodeEach (idx + 1) fs w'
    pure (v :: vs)

/-- Walk a struct and decode all fields of its current revision in order. -/
def walkAndDecode (cfg : Cfg) (h : List Entry) (fs : List (FieldDecl V)) : Rd (List V) := do
  let w ← walkStruct cfg h fs
  decodeEach 0 (aliveFields fs h.length) w

/-- A call on a struct walker; fields are numbered among those of the current revision. -/
inductive FieldCall
  | decode (idx : Nat)
  | skip (idx : Nat)

/-- Run calls one after another on a walker of a struct with the fields `fs`; the result of a
`decode` is recorded. -/
def runCalls (fs : List (FieldDecl V)) : List FieldCall → StructRepr → Rd (List (Option V))
  | [], _ => pure []
  | .decode i :: cs, w =>
    match fs[i]? with
    | none => Rd.fail .contractViolation
    | some f => do
      let (v, w') ← w.decodeField i f
      let rest ← runCalls fs cs w'
      pure (some v :: rest)
  | .skip i :: cs, w =>
    match fs[i]? with
    | none => Rd.fail .contractViolation
    | some f => do
      let w' ← w.skipField f
      let rest ← runCalls fs cs w'
      pure (none :: rest)

/-- The number of the field a call is about. -/
def FieldCall.idx : FieldCall → Nat
  | .decode i => i
  | .skip i => i

/-- What a call gives on the value `vs`. -/
def FieldCall.answer (vs : List V) : FieldCall → Option V
  | .decode i => vs[i]?
  | .skip _ => none

/-- Go through fields in declaration order from number `idx` on, calling `decode_<field>` where the
plan says `true` and `skip_<field>` where it says `false`, as far as the plan goes. -/
def passFields (idx : Nat) : List (FieldDecl V) → List Bool → StructRepr → Rd (List (Option V) × StructRepr)
  | f :: fs, true :: plan, w => do
    let (v, w') ← w.decodeField idx f
    let (rest, w'') ← passFields (idx + 1) fs plan w'
    pure (some v :: rest, w'')
  | f :: fs, false :: plan, w => do
    let w' ← w.skipField f
    let (rest, w'') ← passFields (idx + 1) fs plan w'
    pure (none :: rest, w'')
  | _, _, w => pure ([], w)

/-- What a plan sees of the value `vs`. -/
def planSees (plan : List Bool) (vs : List V) : List (Option V) :=
  List.zipWith (fun d v => if d then some v else none) plan vs

/-- The rule of the macro (`C47`) that a field with an `end` has a convert function. -/
def EndsConverted (fs : List (FieldDecl V)) : Prop :=
  ∀ f ∈ fs, f.opts.stop ≠ none → f.opts.convert ≠ none

/-- The field has none of the attributes that choose an encoding. -/
structure FieldDecl.Plain (f : FieldDecl V) : Prop where
  fixed : f.opts.fixed = false
  specialised : f.opts.specialised = false
  notIndexed : f.isIndexed = false

/-- Data of revision `r` is walked as it is, not converted to the current revision first: the type
has no convert functions, or the data is of the current revision. -/
def NotConverted (h : List Entry) (fs : List (FieldDecl V)) (r : Nat) : Prop :=
  structHasConvert fs = false ∨ r = h.length

/-! ### Enums -/

/-- The same for an enum. -/
def EnumNotConverted (h : List Entry) (vs : List (VariantDecl V)) (r : Nat) : Prop :=
  enumHasConvert vs = false ∨ r = h.length

/-- The rule of the macro (`C47`) for variants. -/
def VariantEndsConverted (vs : List (VariantDecl V)) : Prop :=
  ∀ v ∈ vs, v.opts.stop ≠ none → v.opts.convert ≠ none

/-- Whenever the bytes deserialise, they can be walked, and of the variants of the current revision
the walker claims to hold exactly the one that deserialising gives. -/
def WalkIdentifies (cfg : Cfg) (h : List Entry) (vs : List (VariantDecl V)) (s : Bytes) : Prop :=
  ∀ x r, (enumC cfg h vs).dec s = .ok (x, r) →
    ∃ w r', walkEnum cfg h vs s = .ok (w, r') ∧
      ∀ v ∈ aliveVariants vs h.length, w.isVariant vs h.length v = true ↔ x.variant = v.ident

/-- Between revisions `r` and `r'` no discriminant changes its variant. -/
def StableDiscs (vs : List (VariantDecl V)) (r r' : Nat) : Prop :=
  ∀ v ∈ aliveVariants vs r, ∀ w ∈ aliveVariants vs r', ∀ d d', v.discAt vs r d → w.discAt vs r' d' →
    (v.ident = w.ident ↔ d = d')

/-- Whenever the bytes deserialise, `decode_<v>` of the walker gives the one field `f` of the variant
`v` if that is the variant deserialising gives, leaving the reader at the same place, and otherwise
an error. -/
def WalkDecodes (cfg : Cfg) (h : List Entry) (vs : List (VariantDecl V)) (v : VariantDecl V) (f : FieldDecl V)
    (s : Bytes) : Prop :=
  ∀ x r, (enumC cfg h vs).dec s = .ok (x, r) →
    (x.variant = v.ident → ∃ y, x.fields = [y] ∧
      (do let w ← walkEnum cfg h vs; w.decodeVariant vs h.length v f) s = .ok (y, r)) ∧
    (x.variant ≠ v.ident →
      (do let w ← walkEnum cfg h vs; w.decodeVariant vs h.length v f) s = .err .deserialize)

end Revision
