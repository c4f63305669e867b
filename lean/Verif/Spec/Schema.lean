import Verif.Model.Schema

/-! # What a declaration means: vocabulary for `Verif.Props.Schema` -/

namespace Revision

/-- The discriminant a variant asks for at a revision: `override(revision = r, discriminant = d)`;
the last one written counts. -/
def VariantSig.overrideAt (v : VariantSig) (r : Nat) : Option Nat := (v.opts.overrides.lookup r).join

/-- No two variants that are alive at `r` have the same name. -/
def DistinctVariants (r : Nat) (vs : List VariantSig) : Prop :=
  ((vs.filter (·.existsAt r)).map (·.ident)).Nodup

/-- No two live variants ask for the same discriminant. -/
def OverridesCompatible (r : Nat) (vs : List VariantSig) : Prop :=
  vs.Pairwise fun v w => v.existsAt r = true → w.existsAt r = true →
    ∀ d, v.overrideAt r = some d → w.overrideAt r ≠ some d

/-- The options record the given option. -/
def FieldOptions.Has (o : FieldOptions) : FieldOption → Prop
  | .start n => o.start = some n
  | .stop n => o.stop = some n
  | .convert f => o.convert = some f
  | .default f => o.default = some f
  | .indexedMap => o.indexedMap = true
  | .indexedSeq => o.indexedSeq = true
  | .indexedSet => o.indexedSet = true
  | .fixed => o.fixed = true
  | .specialised => o.specialised = true

/-- The keyword of a field option. -/
inductive FieldKind where
  | start | stop | convert | default | indexedMap | indexedSeq | indexedSet | fixed | specialised
  deriving DecidableEq, Repr

def FieldOption.kind : FieldOption → FieldKind
  | .start _ => .start
  | .stop _ => .stop
  | .convert _ => .convert
  | .default _ => .default
  | .indexedMap => .indexedMap
  | .indexedSeq => .indexedSeq
  | .indexedSet => .indexedSet
  | .fixed => .fixed
  | .specialised => .specialised

/-- The three keywords that choose an indexed encoding. -/
def FieldKind.isIndexed : FieldKind → Bool
  | .indexedMap | .indexedSeq | .indexedSet => true
  | _ => false

/-- A list of field options the documentation allows: no keyword twice, at most one indexed
encoding, and `end` only together with `convert_fn`. -/
def WellFormedOptions (os : List FieldOption) : Prop :=
  (os.map FieldOption.kind).Nodup ∧
  ((os.map FieldOption.kind).filter FieldKind.isIndexed).length ≤ 1 ∧
  (FieldKind.stop ∈ os.map FieldOption.kind → FieldKind.convert ∈ os.map FieldOption.kind)

end Revision
