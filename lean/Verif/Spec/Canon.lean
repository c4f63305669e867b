import Verif.Spec.Program
import Verif.Spec.Ints

/-!
# Writing what was read

How the bytes a value is read from compare with the bytes the value is written to.
-/

namespace Revision

variable {ι : Type}

/-- Every value read can be written, and `R` holds between the bytes it was read from, `u`, and those it is written
to. -/
def Codec.Rewrites (R : Bytes → Bytes → Prop) (c : Codec α) : Prop :=
  ∀ s v r, c.dec s = .ok (v, r) → ∃ u b, s = u ++ r ∧ c.enc v = .ok b ∧ R u b

/-- Nothing gets longer. -/
def NeverLonger (u b : Bytes) : Prop := b.length ≤ u.length

/-- The same bytes, or fewer. -/
def SameOrShorter (u b : Bytes) : Prop := b = u ∨ b.length < u.length

/-- The same bytes. -/
def SameBytes (u b : Bytes) : Prop := b = u

/-- `p` holds of all the types a type is built from, and of itself. -/
def Ty.Built (p : Ty ι → Prop) : Ty ι → Prop
  | .option t => p (.option t) ∧ t.Built p
  | .result t e => p (.result t e) ∧ t.Built p ∧ e.Built p
  | .bound t => p (.bound t) ∧ t.Built p
  | .wrap t => p (.wrap t) ∧ t.Built p
  | .pair s t => p (.pair s t) ∧ s.Built p ∧ t.Built p
  | .array n t => p (.array n t) ∧ t.Built p
  | .vec t => p (.vec t) ∧ t.Built p
  | .vector t => p (.vector t) ∧ t.Built p
  | .btreeMap k v => p (.btreeMap k v) ∧ k.Built p ∧ v.Built p
  | .hashMap k v => p (.hashMap k v) ∧ k.Built p ∧ v.Built p
  | .btreeSet k => p (.btreeSet k) ∧ k.Built p
  | .hashSet k => p (.hashSet k) ∧ k.Built p
  | .binaryHeap t => p (.binaryHeap t) ∧ t.Built p
  | .unit => p .unit
  | .bool => p .bool
  | .int k => p (.int k)
  | .float f => p (.float f)
  | .char => p .char
  | .string => p .string
  | .path => p .path
  | .bytes => p .bytes
  | .uuid => p .uuid
  | .duration => p .duration
  | .systemTime => p .systemTime
  | .notNan f => p (.notNan f)
  | .ext i => p (.ext i)

/-- Times: reading carries nanoseconds over into seconds. -/
def Ty.isTime : Ty ι → Bool
  | .duration | .systemTime => true
  | _ => false

/-- Collections that reading puts in order, or whose equal keys it merges. -/
def Ty.isArranged : Ty ι → Bool
  | .btreeMap .. | .hashMap .. | .btreeSet _ | .hashSet _ | .binaryHeap _ => true
  | _ => false

/-- A vector of `bool`. -/
def Ty.isBits : Ty ι → Bool
  | .vec .bool => true
  | _ => false

/-- Types whose encoding has a number of more than one byte: itself, a count or a tag. -/
def Ty.hasNumber : Ty ι → Bool
  | .int k => decide k.IsVar
  | .string | .path | .bytes | .duration | .systemTime => true
  | .result .. | .bound _ | .vec _ | .vector _ => true
  | .btreeMap .. | .hashMap .. | .btreeSet _ | .hashSet _ | .binaryHeap _ => true
  | _ => false

/-- Nothing a type is built from is read in more than one way, but for the length of numbers. -/
def Ty.Plain (cfg : Cfg) (t : Ty ι) : Prop :=
  t.Built fun u => u.isTime = false ∧ u.isArranged = false ∧ (u.isBits = true → cfg.specialised = false)

/-- Nor do numbers have more than one length. -/
def Ty.Rigid (cfg : Cfg) (t : Ty ι) : Prop :=
  t.Plain cfg ∧ (cfg.fixedWidth = true ∨ t.Built fun u => u.hasNumber = false)

/-- Equal keys are equal to the same keys. -/
def Env.EqLawful (E : Env ι) : Prop :=
  (∀ t a b, E.eq t a b = true → E.eq t b a = true) ∧
    ∀ t a b c, E.eq t a b = true → E.eq t b c = true → E.eq t a c = true

/-! ### Programs -/

section
variable {K : ι → Kind}

/-- A body of one revision, which is as `q` says and the fields as `p` says; impls written by hand rewrite as `R`
says. -/
def Body.Single (R : Bytes → Bytes → Prop) (q : Entry → Prop) (p : Entry → Field K → Prop) (h : List Entry) :
    {k : Kind} → Body K k → Prop
  | _, .struct fs => ∃ e, h = [e] ∧ q e ∧ DistinctFieldNames fs e.revision e.revision ∧ ∀ f ∈ fs, p e f
  | _, .enum vs => ∃ e, h = [e] ∧ q e ∧ AcceptedSigs e (vs.map Variant.sig) ∧
      ∀ v ∈ vs, DistinctFieldNames v.fields e.revision e.revision ∧ ∀ f ∈ v.fields, p e f
  | _, .foreign x => x.codec.Rewrites R

/-- Fields that never get longer: times only where numbers have one length, and no offset tables. -/
def Field.Shrinking (cfg : Cfg) (e : Entry) (f : Field K) : Prop :=
  f.ty.Built (fun u => u.isTime = true → cfg.fixedWidth = true) ∧ (e.optimised = true → f.isIndexed = false)

/-- Fields that are read in one way from the legacy encoding, but for the length of numbers. -/
def Field.Plain (cfg : Cfg) (f : Field K) : Prop :=
  f.ty.Plain cfg ∧ (f.opts.specialised = true → f.ty.isBits = false)

end

/-- A program whose types have one revision each and whose fields never get longer. -/
def Program.Shrinking (cfg : Cfg) (P : Program ι) : Prop :=
  ∀ i, (P.body i).Single NeverLonger (fun _ => True) (Field.Shrinking cfg) (P.history i)

/-- A program whose types have one revision each, with the legacy encoding, and whose fields are plain. -/
def Program.Plain (cfg : Cfg) (R : Bytes → Bytes → Prop) (P : Program ι) : Prop :=
  ∀ i, (P.body i).Single R (·.optimised = false) (fun _ f => f.Plain cfg) (P.history i)

/-- Equal keys are equal to the same keys. -/
def Impls.EqLawful {K : ι → Kind} (I : Impls K) : Prop :=
  (∀ n t a b, I.eq n t a b = true → I.eq n t b a = true) ∧
    ∀ n t a b c, I.eq n t a b = true → I.eq n t b c = true → I.eq n t a c = true

end Revision
