import Verif.Spec.Alike
import Verif.Spec.Derive
import Verif.Spec.Program
import Verif.Spec.Write

/-!
# Replacing one part of a value

`Program.Replaced cfg P I b b' n t v v'`: the value `v'` is `v` but for one part, at any depth, which is serialised as `b` in `v` and as
`b'` in `v'`.
-/

namespace Revision

variable {ι : Type}

/-- `v'` is `v` but for one part: `part` relates the part before and after if it is itself a value of a type, `ext` values of derived
types that contain it.  Maps are lists of pairs here, so a part may be a key, a value or both. -/
inductive Ty.Replaced (cfg : Cfg) (E : Env ι) (ext : (i : ι) → E.X i → E.X i → Prop)
    (part : (t : Ty ι) → t.denote E.X → t.denote E.X → Prop) : (t : Ty ι) → t.denote E.X → t.denote E.X → Prop where
  | part {t v v'} : part t v v' → Replaced cfg E ext part t v v'
  | ext {i x x'} : ext i x x' → Replaced cfg E ext part (.ext i) x x'
  | wrap {t v v'} : Replaced cfg E ext part t v v' → Replaced cfg E ext part (.wrap t) v v'
  | some {t v v'} : Replaced cfg E ext part t v v' → Replaced cfg E ext part (.option t) (Option.some v) (Option.some v')
  | ok {t e v v'} : Replaced cfg E ext part t v v' → Replaced cfg E ext part (.result t e) (Except.ok v) (Except.ok v')
  | error {t e v v'} : Replaced cfg E ext part e v v' → Replaced cfg E ext part (.result t e) (Except.error v) (Except.error v')
  | included {t v v'} : Replaced cfg E ext part t v v' → Replaced cfg E ext part (.bound t) (Bnd.included v) (Bnd.included v')
  | excluded {t v v'} : Replaced cfg E ext part t v v' → Replaced cfg E ext part (.bound t) (Bnd.excluded v) (Bnd.excluded v')
  | fst {s t v v' y} : Replaced cfg E ext part s v v' → Replaced cfg E ext part (.pair s t) (v, y) (v', y)
  | snd {s t v v' x} : Replaced cfg E ext part t v v' → Replaced cfg E ext part (.pair s t) (x, v) (x, v')
  | array {n t v v'} (l r) : Replaced cfg E ext part t v v' →
      Replaced cfg E ext part (.array n t) (show List _ from l ++ v :: r) (show List _ from l ++ v' :: r)
  /-- An element of a collection; of a `Vec` only if it is not written in bulk. -/
  | elem {s e g w w' v v'} (hl : Listed cfg E s e g) (l r) (h : g w = l ++ v :: r) (h' : g w' = l ++ v' :: r) :
      Replaced cfg E ext part e v v' → Replaced cfg E ext part s w w'

/-- One part of an element of an indexed sequence, or of the value of an entry of an indexed map, is replaced.  Keys and the elements of
sets are written in an order that depends on their bytes. -/
def Ty.ReplacedIn {X : ι → Type} (inner : (t : Ty ι) → t.denote X → t.denote X → Prop) : (t : Ty ι) → t.denote X → t.denote X → Prop
  | .vec t, w, w' | .vector t, w, w' => ∃ (l r : List (t.denote X)) (v v' : t.denote X),
      (show List _ from w) = l ++ v :: r ∧ (show List _ from w') = l ++ v' :: r ∧ inner t v v'
  | .btreeMap k t, w, w' | .hashMap k t, w, w' => ∃ (l r : List (k.denote X × t.denote X)) (key : k.denote X) (v v' : t.denote X),
      (show List _ from w) = l ++ (key, v) :: r ∧ (show List _ from w') = l ++ (key, v') :: r ∧ inner t v v'
  | _, _, _ => False

section
variable {K : ι → Kind} [DecidableEq ι]

/-- A field is written with the impls of its type alone: not `indexed_*` in an optimised struct, not `fixed` or `specialised` in the
legacy format. -/
def Field.WrittenPlain (e : Entry) (variant : Bool) (f : Field K) : Prop :=
  if e.optimised then variant = true ∨ f.isIndexed = false else f.opts.fixed = false ∧ f.opts.specialised = false

/-- A field is written as an indexed collection. -/
def Field.WrittenIndexed (e : Entry) (f : Field K) : Prop := e.optimised = true ∧ f.isIndexed = true

/-- One part of a field is replaced: the whole field, whatever its attributes, or a part of it. `c` is how the field is written. -/
def Field.Replaced {n : Nat} (c : Codec (DynAt K n)) (plain indexed : Prop) (b b' : Bytes)
    (inner : (t : Ty ι) → t.denote (Values K n) → t.denote (Values K n) → Prop) (f : Field K) (x x' : DynAt K n) : Prop :=
  (c.enc x = .ok b ∧ c.enc x' = .ok b') ∨ (plain ∧ ∃ a a', x = ⟨f.ty, a⟩ ∧ x' = ⟨f.ty, a'⟩ ∧ inner f.ty a a') ∨
    (indexed ∧ ∃ a a', x = ⟨f.ty, a⟩ ∧ x' = ⟨f.ty, a'⟩ ∧ Ty.ReplacedIn inner f.ty a a')

/-- Values for the fields `fs`, and the same but for one part of one of them. -/
def Field.OneReplaced {n : Nat} (fs : List (Field K)) (R : Field K → DynAt K n → DynAt K n → Prop) (xs xs' : List (DynAt K n)) : Prop :=
  xs.length = fs.length ∧ ∃ f l x x' r, xs = l ++ x :: r ∧ xs' = l ++ x' :: r ∧ fs[l.length]? = some f ∧ R f x x'

/-- One part of a value of a derived type is replaced: in a struct in a field of the current revision, in an enum in a field of the
value's variant, which in the optimised format is not an `inline` one. -/
def Body.Replaced (cfg : Cfg) (I : Impls K) {n : Nat} (c : (i : ι) → Codec (Values K n i)) (h : List Entry) (b b' : Bytes)
    (inner : (t : Ty ι) → t.denote (Values K n) → t.denote (Values K n) → Prop) :
    {k : Kind} → Body K k → k.values (DynAt K n) → k.values (DynAt K n) → Prop
  | _, .struct fs, this, this' => Field.OneReplaced (fs.filter (·.existsAt h.length))
      (fun f => f.Replaced ((f.decl cfg I n c).wire (lastEntry h)) (f.WrittenPlain (lastEntry h) false)
        (f.WrittenIndexed (lastEntry h)) b b' inner)
      (show List (DynAt K n) from this) (show List (DynAt K n) from this')
  | _, .enum vs, x, x' => x'.variant = x.variant ∧ ∃ v ∈ vs, v.existsAt h.length = true ∧ v.ident = x.variant ∧
      ((lastEntry h).optimised = true → v.opts.size.getD .inline ≠ .inline) ∧
      Field.OneReplaced (v.fields.filter (·.existsAt h.length))
        (fun f => f.Replaced ((f.decl cfg I n c).variantWire (lastEntry h)) (f.WrittenPlain (lastEntry h) true) False b b' inner)
        x.fields x'.fields
  | _, .foreign _, _, _ => False

/-- One part of a value of a program is replaced, which is serialised as `b` before and as `b'` after. -/
def Program.Replaced (cfg : Cfg) (P : Program ι) (I : Impls P.kind) (b b' : Bytes) : (n : Nat) → (t : Ty ι) →
    t.denote (Values P.kind n) → t.denote (Values P.kind n) → Prop
  | 0 => Ty.Replaced cfg (I.env 0 (P.codec cfg I 0)) (fun _ x => nomatch x) (fun t v v' =>
      (t.codec cfg (I.env 0 (P.codec cfg I 0))).enc v = .ok b ∧ (t.codec cfg (I.env 0 (P.codec cfg I 0))).enc v' = .ok b')
  | n + 1 => Ty.Replaced cfg (I.env (n + 1) (P.codec cfg I (n + 1)))
      (fun i x x' => (P.body i).Replaced cfg I (P.codec cfg I n) (P.history i) b b' (P.Replaced cfg I b b' n) x x') (fun t v v' =>
      (t.codec cfg (I.env (n + 1) (P.codec cfg I (n + 1)))).enc v = .ok b ∧
        (t.codec cfg (I.env (n + 1) (P.codec cfg I (n + 1)))).enc v' = .ok b')

/-- Several parts of a value are replaced, one after the other: each pair is what a part is serialised as before and after. -/
inductive Program.Edited (cfg : Cfg) (P : Program ι) (I : Impls P.kind) (n : Nat) (t : Ty ι) :
    List (Bytes × Bytes) → t.denote (Values P.kind n) → t.denote (Values P.kind n) → Prop where
  | refl (v) : Program.Edited cfg P I n t [] v v
  | step {b b' l v v' v''} : P.Replaced cfg I b b' n t v v' → Program.Edited cfg P I n t l v' v'' →
      Program.Edited cfg P I n t ((b, b') :: l) v v''

/-- The same done to bytes: each pair is taken out somewhere and put in its place. -/
inductive Overwritten : List (Bytes × Bytes) → Bytes → Bytes → Prop where
  | refl (o) : Overwritten [] o o
  | step {b b' l o''} (p q : Bytes) : Overwritten l (p ++ b' ++ q) o'' → Overwritten ((b, b') :: l) (p ++ b ++ q) o''

end

end Revision
