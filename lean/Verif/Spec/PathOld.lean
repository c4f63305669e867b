import Verif.Spec.Path

/-!
# Paths into data of earlier revisions

Which paths the walkers of a program can follow through data the program wrote when its types were at the
revisions `r`.
-/

namespace Revision

variable {ι : Type}

/-- As `Ty.openStep`; sets, maps and heaps are rebuilt when they are read, so their elements or keys must
compare as they did. -/
def Ty.openStepAt (cfg : Cfg) (order same inner : Ty ι → Prop) (ext : ι → Prop) (s : Step) : Ty ι → Prop
  | .option t => s = .some → inner t
  | .result t e => (s = .ok → inner t) ∧ (s = .err → inner e)
  | .vec t => ∀ k, s = .elem k → vecUsesBulkEncoding cfg t = false ∧ inner t
  | .vector t => ∀ k, s = .elem k → inner t
  | .btreeSet t | .binaryHeap t => ∀ k, s = .elem k → order t ∧ inner t
  | .hashSet t => ∀ k, s = .elem k → same t ∧ inner t
  | .btreeMap k v => (∀ j, s = .value j → order k ∧ inner v) ∧ ∀ b, s = .key b → order k ∧ inner v
  | .hashMap k v => (∀ j, s = .value j → same k ∧ inner v) ∧ ∀ b, s = .key b → same k ∧ inner v
  | .wrap t => t.openStepAt cfg order same inner ext s
  | .ext i => ext i
  | _ => True

section
variable {K : ι → Kind}

/-- Between revisions `r` and `r'` no discriminant changes its variant (`C59_moved_discriminant_false`). -/
def KeepsDiscs (r r' : Nat) (vs : List (Variant K)) : Prop :=
  ∀ v ∈ vs, v.existsAt r = true → ∀ w ∈ vs, w.existsAt r' = true → ∀ D D', calcDiscs r (vs.map Variant.sig) = .ok D →
    calcDiscs r' (vs.map Variant.sig) = .ok D' → ∀ d d', D.lookup v.ident = some d → D'.lookup w.ident = some d' →
      (v.ident = w.ident ↔ d = d')

/-- The walkers can follow the step into a type written at entry `e`, when the type is at the entry `c` now.

Either the data is walked as it is: the type has no convert functions or `e` is `c`, and nothing it had
has been removed (the macro wants a convert function for what is removed, `C47`).  Then the exclusions of `Body.openStep` hold for `e`; moreover an `indexed_struct` has the
fields it had (`C57_older_indexed_false`), a field added since can be decoded but not walked, the field of a variant was there
(`C70_added_field_false`), and the discriminants of an optimised enum are the same (`C59_moved_discriminant_false`).

Or it is converted first and written again as data of `c`: then its fields can be decoded, but not walked,
if `c` is a legacy entry (`C57_converted_false`, `C59_converted_false`) and the converted value can be written. -/
def Body.openStepAt (e c : Entry) (rewrites : Prop) (last : Bool) (inner view : Ty ι → Prop) (s : Step) :
    {k : Kind} → Body K k → Prop
  | _, .struct fs => ∀ name, s = .field name →
    ((e.revision = c.revision ∨ ∀ f ∈ fs, f.opts.convert = none) ∧
      (∀ f ∈ fs, f.existsAt e.revision = true → f.existsAt c.revision = true) ∧
      (e.optimised = false → ∀ f ∈ fs, f.existsAt e.revision = true →
        f.opts.fixed = false ∧ f.opts.specialised = false ∧ f.isIndexed = false) ∧
      (e.optimised = true → e.indexedStruct = true → ∀ f ∈ fs, f.existsAt c.revision = true →
        f.existsAt e.revision = true) ∧
      ∀ f ∈ fs, f.existsAt c.revision = true → f.name = name →
        if f.existsAt e.revision = true then
          if f.isIndexed = true then if last = true then e.indexedStruct = false else view f.ty else inner f.ty
        else last = true) ∨
    (e.revision ≠ c.revision ∧ (∃ f ∈ fs, f.opts.convert ≠ none) ∧ last = true ∧ rewrites ∧ c.optimised = false ∧
      ∀ f ∈ fs, f.existsAt c.revision = true → f.opts.fixed = false ∧ f.opts.specialised = false)
  | _, .enum vs => ∀ ident, s = .variant ident →
    ((e.revision = c.revision ∨ ∀ v ∈ vs, v.opts.convert = none ∧ ∀ f ∈ v.fields, f.opts.convert = none) ∧
      (∀ v ∈ vs, v.existsAt e.revision = true → v.existsAt c.revision = true ∧
        ∀ f ∈ v.fields, f.existsAt e.revision = true → f.existsAt c.revision = true) ∧
      (e.optimised = true → KeepsDiscs e.revision c.revision vs) ∧
      ∀ v ∈ vs, v.existsAt e.revision = true → v.ident = ident → ∀ f ∈ v.fields, f.existsAt c.revision = true →
        f.existsAt e.revision = true ∧ inner f.ty ∧
          (e.optimised = false → f.opts.fixed = false ∧ f.opts.specialised = false)) ∨
    (e.revision ≠ c.revision ∧ (∃ v ∈ vs, v.opts.convert ≠ none ∨ ∃ f ∈ v.fields, f.opts.convert ≠ none) ∧ last = true ∧
      rewrites ∧ c.optimised = false ∧
      ∀ v ∈ vs, v.existsAt c.revision = true → v.ident = ident → ∀ f ∈ v.fields, f.existsAt c.revision = true →
        f.opts.fixed = false ∧ f.opts.specialised = false)
  | _, .foreign _ => True

end

/-- As `Ty.openView`, for data of an earlier revision: its elements, keys and values took at least a byte each,
and the keys of maps are serialised and compare as they did. -/
def Ty.openViewAt (weighs order same bytes inner : Ty ι → Prop) (s : Step) : Ty ι → Prop
  | .vec t | .vector t => ∀ k, s = .elem k → weighs t ∧ inner t
  | .btreeMap k v => (∀ b, s = .key b → weighs k ∧ weighs v ∧ order k ∧ bytes k ∧ inner v) ∧ ∀ j, s ≠ .value j
  | .hashMap k v => (∀ b, s = .key b → weighs k ∧ weighs v ∧ same k ∧ bytes k ∧ inner v) ∧ ∀ j, s ≠ .value j
  | .btreeSet _ | .hashSet _ => ∀ k, s ≠ .elem k
  | _ => False

variable [DecidableEq ι]

section
variable (cfg : Cfg) (P : Program ι) (I I' : Impls P.kind) (r : ι → Nat)

/-- What the program makes of a value of type `t` of the program as it stood at `r` (`C74`). -/
def Program.migrateTy (n m : Nat) (t : Ty ι) (v : t.denote (Values P.kind n)) : Option (t.denote (Values P.kind m)) :=
  t.migrate (I.env n ((P.asOf r).codec cfg I n)) (I'.env m (P.codec cfg I' m)) (P.migrate cfg I I' r n m) v

/-- Values of type `t` compare as they did before. -/
def Program.KeepsOrder (t : Ty ι) : Prop :=
  ∀ n m a b a' b', P.migrateTy cfg I I' r n m t a = some a' → P.migrateTy cfg I I' r n m t b = some b' →
    I'.cmp m t a' b' = I.cmp n t a b

/-- Values of type `t` are equal if they were before. -/
def Program.KeepsEq (t : Ty ι) : Prop :=
  ∀ n m a b a' b', P.migrateTy cfg I I' r n m t a = some a' → P.migrateTy cfg I I' r n m t b = some b' →
    I'.eq m t a' b' = I.eq n t a b

/-- Values of type `t` are serialised as they were before. -/
def Program.KeepsBytes (t : Ty ι) : Prop :=
  ∀ n m a a', P.migrateTy cfg I I' r n m t a = some a' →
    P.encode cfg I' m t a' = (P.asOf r).encode cfg I n t a

/-- Values of the derived type `i` that are read can be written (`C106`). -/
def Program.Rewrites (i : ι) : Prop :=
  ∀ n m v v', ((P.asOf r).codec cfg I n i).valid v → P.migrate cfg I I' r n m i v = some v' →
    (P.codec cfg I' m i).valid v' ∧ ∃ b, (P.codec cfg I' m i).enc v' = .ok b

mutual

/-- The walkers can follow the path from a value of type `t` written at the revisions `r`. -/
def Program.OpenAt : List Step → Ty ι → Prop
  | [], _ => True
  | s :: p, t => t.openStepAt cfg (P.KeepsOrder cfg I I' r) (P.KeepsEq cfg I I' r) (Program.OpenAt p)
    (fun i => Body.openStepAt (P.entryAt r i) (lastEntry (P.history i)) (P.Rewrites cfg I I' r i) p.isEmpty
      (Program.OpenAt p) (Program.OpenViewAt p) s (P.body i)) s

/-- The same from a view of a field of type `t`. -/
def Program.OpenViewAt : List Step → Ty ι → Prop
  | [], _ => True
  | s :: p, t => t.openViewAt ((P.asOf r).Weighs cfg I) (P.KeepsOrder cfg I I' r) (P.KeepsEq cfg I I' r)
    (P.KeepsBytes cfg I I' r) (Program.OpenAt p) s

end

end

end Revision
