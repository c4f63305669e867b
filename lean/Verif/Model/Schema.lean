import Verif.Model.Base

/-!
# What the `#[revisioned]` macro accepts

Models the attribute handling of `/repo/revision-derive/src/ast/attributes.rs` and the validation
passes of `/repo/revision-derive/src/expand`: revision histories, lifetime windows, discriminants.
Each option arrives as one constructor; parsing is `Model/Parse`.
-/

namespace Revision

/-- The compile errors of the macro, by cause (`syn::Error`; spans and wording dropped):
every `Error::new` of `/repo/revision-derive/src/ast/attributes.rs:246-338`, `:464-635`, `:736-832` and
`/repo/revision-derive/src/expand/validate_version.rs:9-101`. -/
inductive MacroErr where
  | optionTwice | indexedTwice | endWithoutConvert | overrideWithoutRevision
  | mixedSyntax | zeroRevision | duplicateRevision (n : Nat) | gap (expected found : Nat)
  | missingRevision | revisionTwice | revisionTooLarge | usedRevisionTooLarge
  | unsupportedIndexed | unknownEncoding | needsOptimised
  | tooManyVariants | sizeMissing | discriminantTooLarge | discriminantTwice | inlineWithFields
  | fixedType | walkConvert | convertMissing | panicked
  deriving DecidableEq, Repr

/-! ### Fields -/

/-- Models `enum FieldOption`, `/repo/revision-derive/src/ast/attributes.rs:197-207`. -/
inductive FieldOption where
  | start (n : Nat) | stop (n : Nat)
  | convert (fn : String) | default (fn : String)
  | indexedMap | indexedSeq | indexedSet | fixed | specialised
  deriving DecidableEq, Repr

/-- Models `struct FieldOptions`, `/repo/revision-derive/src/ast/attributes.rs:164-188`. -/
structure FieldOptions where
  start : Option Nat := none
  stop : Option Nat := none
  convert : Option String := none
  default : Option String := none
  indexedMap : Bool := false
  indexedSeq : Bool := false
  indexedSet : Bool := false
  fixed : Bool := false
  specialised : Bool := false
  deriving DecidableEq, Repr

/-- `start.unwrap_or(0) <= revision && end.unwrap_or(usize::MAX) > revision`.  Models
`FieldOptions::exists_at`, `/repo/revision-derive/src/ast/attributes.rs:191-194`, and
`VariantOptions::exists_at`, `:673-676`. -/
def existsAt (start stop : Option Nat) (r : Nat) : Bool :=
  decide (start.getD 0 ≤ r) && decide (stop.getD (2 ^ 64 - 1) > r)

/-- One step of the loop of `FieldOptions::finish`,
`/repo/revision-derive/src/ast/attributes.rs:250-324`. -/
def FieldOptions.step (o : FieldOptions) : FieldOption → Except MacroErr FieldOptions
  | .start n => if o.start.isSome then .error .optionTwice else .ok { o with start := some n }
  | .stop n => if o.stop.isSome then .error .optionTwice else .ok { o with stop := some n }
  | .convert f => if o.convert.isSome then .error .optionTwice else .ok { o with convert := some f }
  | .default f => if o.default.isSome then .error .optionTwice else .ok { o with default := some f }
  | .indexedMap =>
    if o.indexedMap then .error .optionTwice
    else if o.indexedSeq || o.indexedSet then .error .indexedTwice
    else .ok { o with indexedMap := true }
  | .indexedSeq =>
    if o.indexedSeq then .error .optionTwice
    else if o.indexedMap || o.indexedSet then .error .indexedTwice
    else .ok { o with indexedSeq := true }
  | .indexedSet =>
    if o.indexedSet then .error .optionTwice
    else if o.indexedMap || o.indexedSeq then .error .indexedTwice
    else .ok { o with indexedSet := true }
  | .fixed => if o.fixed then .error .optionTwice else .ok { o with fixed := true }
  | .specialised => if o.specialised then .error .optionTwice else .ok { o with specialised := true }

/-- `for option in options { step }`: `/repo/revision-derive/src/ast/attributes.rs:250-324`. -/
def FieldOptions.steps (o : FieldOptions) : List FieldOption → Except MacroErr FieldOptions
  | [] => .ok o
  | x :: xs =>
    match o.step x with
    | .ok o' => o'.steps xs
    | .error e => .error e

/-- Models `FieldOptions::finish`, `/repo/revision-derive/src/ast/attributes.rs:246-338`. -/
def FieldOptions.finish (os : List FieldOption) : Except MacroErr FieldOptions :=
  match FieldOptions.steps {} os with
  | .ok o => if o.stop.isSome && o.convert.isNone then .error .endWithoutConvert else .ok o
  | .error e => .error e

/-! ### Variants -/

/-- Models `enum VariantSize`, `/repo/revision-derive/src/ast/attributes.rs:640-645`. -/
inductive VariantSize where
  | inline | fixed (n : Nat) | varlen
  deriving DecidableEq, Repr

/-- Models `enum VariantOverride`, `/repo/revision-derive/src/ast/attributes.rs:689-692`. -/
inductive VariantOverride where
  | discriminant (d : Nat) | revision (r : Nat)
  deriving DecidableEq, Repr

/-- Models `enum VariantOption`, `/repo/revision-derive/src/ast/attributes.rs:679-687`. -/
inductive VariantOption where
  | start (n : Nat) | stop (n : Nat)
  | convert (fn : String) | default (fn : String) | fieldsName (s : String)
  | override (os : List VariantOverride)
  | size (s : VariantSize)
  deriving Repr

/-- Models `struct VariantOptions`, `/repo/revision-derive/src/ast/attributes.rs:654-665`.
`overrides` is the `HashMap`, newest entry first. -/
structure VariantOptions where
  start : Option Nat := none
  stop : Option Nat := none
  convert : Option String := none
  default : Option String := none
  fieldsName : Option String := none
  overrides : List (Nat × Option Nat) := []
  size : Option VariantSize := none
  deriving DecidableEq, Repr

/-- The inner loop of the `Override` arm, `/repo/revision-derive/src/ast/attributes.rs:786-808`:
the discriminant and the revision given. -/
def overrideLoop : List VariantOverride → Option Nat → Option Nat →
    Except MacroErr (Option Nat × Option Nat)
  | [], d, r => .ok (d, r)
  | .discriminant x :: os, d, r =>
    if d.isSome then .error .optionTwice else overrideLoop os (some x) r
  | .revision x :: os, d, r =>
    if r.isSome then .error .optionTwice else overrideLoop os d (some x)

/-- One step of the loop of `VariantOptions::finish`,
`/repo/revision-derive/src/ast/attributes.rs:741-820`. -/
def VariantOptions.step (o : VariantOptions) : VariantOption → Except MacroErr VariantOptions
  | .start n => if o.start.isSome then .error .optionTwice else .ok { o with start := some n }
  | .stop n => if o.stop.isSome then .error .optionTwice else .ok { o with stop := some n }
  | .convert f => if o.convert.isSome then .error .optionTwice else .ok { o with convert := some f }
  | .default f => if o.default.isSome then .error .optionTwice else .ok { o with default := some f }
  | .fieldsName s =>
    if o.fieldsName.isSome then .error .optionTwice else .ok { o with fieldsName := some s }
  | .size s => if o.size.isSome then .error .optionTwice else .ok { o with size := some s }
  | .override os =>
    match overrideLoop os none none with
    | .error e => .error e
    | .ok (_, none) => .error .overrideWithoutRevision
    | .ok (d, some r) => .ok { o with overrides := (r, d) :: o.overrides }

/-- `for option in options { step }`: `/repo/revision-derive/src/ast/attributes.rs:741-820`. -/
def VariantOptions.steps (o : VariantOptions) : List VariantOption → Except MacroErr VariantOptions
  | [] => .ok o
  | x :: xs =>
    match o.step x with
    | .ok o' => o'.steps xs
    | .error e => .error e

/-- Models `VariantOptions::finish`, `/repo/revision-derive/src/ast/attributes.rs:736-832`. -/
def VariantOptions.finish (os : List VariantOption) : Except MacroErr VariantOptions :=
  match VariantOptions.steps {} os with
  | .ok o => if o.stop.isSome && o.convert.isNone then .error .endWithoutConvert else .ok o
  | .error e => .error e

/-! ### Histories -/

/-- Models `struct HistoryEntry`, `/repo/revision-derive/src/ast/history.rs:52-61`, and
`EncodingContext`, `/repo/revision-derive/src/expand/context.rs:14-22`.  The type-level `map` and
`seq` encodings are dropped: only `Default` can be written. -/
structure Entry where
  revision : Nat
  optimised : Bool
  indexedStruct : Bool
  deriving DecidableEq, Repr

/-- Models `HistoryEntry::legacy`, `/repo/revision-derive/src/ast/history.rs:67-77`. -/
def Entry.legacy (r : Nat) : Entry := ⟨r, false, false⟩

/-- Models `enum RevisionEntryOption`, `/repo/revision-derive/src/ast/attributes.rs:384-389`. -/
inductive EntryOption where
  | optimised | map (s : String) | seq (s : String) | indexedStruct
  deriving DecidableEq, Repr

/-- The loop of `build_history_entry`, `/repo/revision-derive/src/ast/attributes.rs:464-501`. -/
def entryLoop (e : Entry) : List EntryOption → Except MacroErr Entry
  | [] => .ok e
  | .optimised :: os => entryLoop { e with optimised := true } os
  | .map s :: os =>
    if s = "default" then entryLoop e os
    else if s = "indexed" then .error .unsupportedIndexed
    else .error .unknownEncoding
  | .seq s :: os =>
    if s = "default" then entryLoop e os
    else if s = "indexed" then .error .unsupportedIndexed
    else .error .unknownEncoding
  | .indexedStruct :: os => entryLoop { e with indexedStruct := true } os

/-- Models `build_history_entry`, `/repo/revision-derive/src/ast/attributes.rs:460-514`. -/
def buildEntry (r : Nat) (os : List EntryOption) : Except MacroErr Entry :=
  match entryLoop (Entry.legacy r) os with
  | .ok e => if !e.optimised && e.indexedStruct then .error .needsOptimised else .ok e
  | .error e => .error e

/-- Insert before the first entry that is not smaller: `/repo/revision-derive/src/ast/attributes.rs:614-630`. -/
def insertEntry (e : Entry) : List Entry → List Entry
  | [] => [e]
  | x :: xs => if e.revision ≤ x.revision then e :: x :: xs else x :: insertEntry e xs

/-- `sort_by_key(|h| h.revision.value)`: the stable sort: `/repo/revision-derive/src/ast/attributes.rs:614-630`. -/
def sortEntries : List Entry → List Entry
  | [] => []
  | e :: es => insertEntry e (sortEntries es)

/-- The loop of `resolve_history`, `/repo/revision-derive/src/ast/attributes.rs:614-630`: entry
`idx`, the previous entry's revision, the entries left. -/
def contiguous : Nat → Option Nat → List Entry → Except MacroErr Unit
  | _, _, [] => .ok ()
  | idx, prev, e :: es =>
    if e.revision ≠ idx + 1 then
      if prev = some e.revision then .error (.duplicateRevision e.revision)
      else .error (.gap (idx + 1) e.revision)
    else contiguous (idx + 1) (some e.revision) es

/-- Models `resolve_history`, `/repo/revision-derive/src/ast/attributes.rs:585-635`. -/
def resolveHistory (legacy : Option Nat) (new : List Entry) : Except MacroErr (List Entry) :=
  match legacy, new with
  | some _, _ :: _ => .error .mixedSyntax
  | some n, [] =>
    if n = 0 then .error .zeroRevision
    else .ok ((List.range' 1 n).map Entry.legacy)
  | none, e :: es =>
    let sorted := sortEntries (e :: es)
    match contiguous 0 none sorted with
    | .ok () => .ok sorted
    | .error x => .error x
  | none, [] => .ok []

/-- The revision a history writes: `history.last().revision`: `/repo/revision-derive/src/expand/mod.rs:29-54`. -/
def latest (h : List Entry) : Nat := (h.getLast?.map Entry.revision).getD 0

/-- Models the selection and bounds of the history in `revision`,
`/repo/revision-derive/src/expand/mod.rs:29-54`: `item` from the attributes below the macro,
`direct` from its arguments. -/
def itemHistory (item direct : List Entry) : Except MacroErr (List Entry) :=
  match item, direct with
  | [], [] => .error .missingRevision
  | _ :: _, _ :: _ => .error .revisionTwice
  | [], d => check d
  | i, [] => check i
where
  check (h : List Entry) : Except MacroErr (List Entry) :=
    if latest h > 65535 then .error .revisionTooLarge
    else if latest h = 0 then .error .zeroRevision
    else .ok h

/-! ### Items -/

/-- A variant as the passes over revisions see it: `/repo/revision-derive/src/ast/mod.rs:76-82`. -/
structure VariantSig where
  ident : String
  opts : VariantOptions
  fields : List FieldOptions
  deriving DecidableEq, Repr

/-- `exists_at` of a variant: `/repo/revision-derive/src/ast/attributes.rs:672-676`. -/
def VariantSig.existsAt (v : VariantSig) (r : Nat) : Bool :=
  Revision.existsAt v.opts.start v.opts.stop r

/-- `opt.is_some_and(|s| s.value > revision)`: `/repo/revision-derive/src/expand/validate_version.rs:10-36`. -/
def exceeds (x : Option Nat) (revision : Nat) : Bool := x.any (· > revision)

/-- Models `ValidateRevision::visit_field`,
`/repo/revision-derive/src/expand/validate_version.rs:10-22`. -/
def validateField (revision : Nat) (o : FieldOptions) : Bool :=
  !exceeds o.start revision && !exceeds o.stop revision

/-- Models `ValidateRevision::visit_variant`,
`/repo/revision-derive/src/expand/validate_version.rs:24-36`. -/
def validateVariant (revision : Nat) (v : VariantSig) : Bool :=
  !exceeds v.opts.start revision && !exceeds v.opts.stop revision &&
    v.fields.all (validateField revision)

/-! ### Discriminants -/

/-- The `HashMap<Ident, u32>` of discriminants, newest entry first:
`/repo/revision-derive/src/expand/common.rs:49-54`. -/
abbrev Discs := List (String × Nat)

/-- Models `GatherOverrides`, `/repo/revision-derive/src/expand/common.rs:98-125`. -/
def gatherOverrides (r : Nat) : List VariantSig → Discs → List Nat →
    Except MacroErr (Discs × List Nat)
  | [], discs, used => .ok (discs, used)
  | v :: vs, discs, used =>
    if !v.existsAt r then gatherOverrides r vs discs used
    else match v.opts.overrides.lookup r with
      | some (some d) =>
        if used.contains d then .error .discriminantTwice
        else gatherOverrides r vs ((v.ident, d) :: discs) (d :: used)
      | _ => gatherOverrides r vs discs used

/-- `while self.used.contains(&self.next) { self.next += 1; }`; `fuel` bounds the iterations (one
more than the size of `used` is enough, `nextFree_not_mem`).  Overflow of the `u32` needs 2^32
variants and is not modelled: `/repo/revision-derive/src/expand/common.rs:87-89`. -/
def nextFree (used : List Nat) : Nat → Nat → Nat
  | 0, next => next
  | fuel + 1, next => if used.contains next then nextFree used fuel (next + 1) else next

/-- Models `CalcDiscriminant::visit_variant`, `/repo/revision-derive/src/expand/common.rs:77-94`,
over the variants in declaration order. -/
def assignDiscs (r : Nat) : List VariantSig → Discs → List Nat → Nat → Discs
  | [], discs, _, _ => discs
  | v :: vs, discs, used, next =>
    if !v.existsAt r then assignDiscs r vs discs used next
    else if (discs.lookup v.ident).isSome then assignDiscs r vs discs used next
    else
      let d := nextFree used (used.length + 1) next
      assignDiscs r vs ((v.ident, d) :: discs) (d :: used) d

/-- Models `CalcDiscriminant::visit_enum`, `/repo/revision-derive/src/expand/common.rs:66-75`. -/
def calcDiscs (r : Nat) (vs : List VariantSig) : Except MacroErr Discs :=
  match gatherOverrides r vs [] [] with
  | .ok (discs, used) => .ok (assignDiscs r vs discs used 0)
  | .error e => .error e

/-- Models `ValidateOptimised::check_entry`,
`/repo/revision-derive/src/expand/validate_version.rs:59-101`, for one optimised entry of an enum. -/
def validateOptimised (r : Nat) (vs : List VariantSig) : Except MacroErr Unit :=
  let alive := vs.filter (·.existsAt r)
  if alive.length > 32 then .error .tooManyVariants
  else if alive.any (·.opts.size.isNone) then .error .sizeMissing
  else match calcDiscs r vs with
    | .error e => .error e
    | .ok discs => if discs.any (·.2 ≥ 32) then .error .discriminantTooLarge else .ok ()

/-- Models `walk_revisioned_variant_name`, `/repo/revision-derive/src/expand/walk.rs:1518-1564`. -/
def variantName (latest : Nat) (vs : List VariantSig) (r d : Nat) : Option String :=
  if 1 ≤ r ∧ r ≤ latest then
    match calcDiscs r vs with
    | .ok discs => ((vs.filter (·.existsAt r)).find? fun v => discs.lookup v.ident = some d).map (·.ident)
    | .error _ => none
  else none

/-- Models `walk_revisioned_variant_table`, `/repo/revision-derive/src/expand/walk.rs:1518-1577`. -/
def variantTable (latest : Nat) (vs : List VariantSig) (r : Nat) : List (String × Nat) :=
  if 1 ≤ r ∧ r ≤ latest then
    match calcDiscs r vs with
    | .ok discs => (vs.filter (·.existsAt r)).filterMap fun v => (discs.lookup v.ident).map (v.ident, ·)
    | .error _ => []
  else []

/-- Models `walk_revisioned_field_names`, `/repo/revision-derive/src/expand/walk.rs:1580-1628`. -/
def fieldNames (latest : Nat) (fs : List (String × FieldOptions)) (r : Nat) : List String :=
  if 1 ≤ r ∧ r ≤ latest then
    (fs.filter fun f => existsAt f.2.start f.2.stop r).map (·.1)
  else []

end Revision
