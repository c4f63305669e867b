import Verif.Model.Ty
import Verif.Spec.Laws

/-!
# Specification vocabulary for the closure of the supported types

What it means for a value to be well-formed (`Ty.WF`) and to fit the machine (`Ty.Fits`), said
without reference to any encoding.
-/

namespace Revision

/-- What is asked of the environment: the further types satisfy the laws, the orders are total
preorders (`Ord`), and an allocator granting a request grants smaller ones. -/
structure Env.Lawful (E : Env ι) : Prop where
  ext : ∀ i, (E.extC i).Lawful
  cap_mono : ∀ t m n, m ≤ n → E.cap t n = true → E.cap t m = true
  trans : ∀ t, Std.TransCmp (E.cmp t)

/-- IEEE 754 NaN: exponent all ones, fraction non-zero. -/
def FloatTy.IsNaN : (f : FloatTy) → BitVec (8 * f.bytes) → Prop
  | .f32, v => v.toNat / 2 ^ 23 % 2 ^ 8 = 2 ^ 8 - 1 ∧ v.toNat % 2 ^ 23 ≠ 0
  | .f64, v => v.toNat / 2 ^ 52 % 2 ^ 11 = 2 ^ 11 - 1 ∧ v.toNat % 2 ^ 52 ≠ 0

/-- The invariant of a type: what holds of every value safe Rust code can hold (for
`SystemTime`: at or after the epoch; for `Path`: UTF-8). -/
def Ty.WF (E : Env ι) : (t : Ty ι) → t.denote E.X → Prop
  | .unit, _ | .bool, _ | .int _, _ | .float _, _ | .char, _ | .string, _ | .bytes, _ | .uuid, _ =>
    True
  | .path, p => ∃ s : String, p = s.toByteArray.data.toList
  | .duration, d => d.2.toNat < 1000000000
  | .systemTime, d => 0 ≤ d.1.toInt ∧ d.2.toNat < 1000000000
  | .notNan f, v => ¬ f.IsNaN v
  | .option t, v => ∀ a, v = some a → t.WF E a
  | .result t e, v => (∀ a, v = .ok a → t.WF E a) ∧ (∀ x, v = .error x → e.WF E x)
  | .bound t, v => ∀ a, v = .included a ∨ v = .excluded a → t.WF E a
  | .wrap t, v => t.WF E v
  | .pair s t, v => s.WF E v.1 ∧ t.WF E v.2
  | .array n t, l => l.length = n ∧ ∀ a ∈ l, t.WF E a
  | .vec t, l => ∀ a ∈ l, t.WF E a
  | .btreeMap k v, l =>
    (∀ e ∈ l, k.WF E e.1 ∧ v.WF E e.2) ∧ l.Pairwise (fun a b => E.cmp k a.1 b.1 = .lt)
  | .btreeSet k, l => (∀ e ∈ l, k.WF E e) ∧ l.Pairwise (fun a b => E.cmp k a b = .lt)
  | .hashMap k v, l =>
    (∀ e ∈ l, k.WF E e.1 ∧ v.WF E e.2) ∧ l.Pairwise (fun a b => E.eq k a.1 b.1 = false)
  | .hashSet k, l => (∀ e ∈ l, k.WF E e) ∧ l.Pairwise (fun a b => E.eq k a b = false)
  | .vector t, l => ∀ a ∈ l, t.WF E a
  | .binaryHeap t, l => (∀ e ∈ l, t.WF E e) ∧
    ∀ i (h : i < l.length), 0 < i → (E.cmp t l[i] (l[(i - 1) / 2]'(by omega))).isLE = true
  | .ext i, v => (E.extC i).valid v

/-- Bytes per element in memory, where it matters. -/
def Ty.elemBytes : Ty ι → Nat
  | .int k => k.bits / 8
  | .float f => f.bytes
  | .uuid => 16
  | _ => 1

/-- The value fits the machine: every buffer in it is smaller than the address space and one the
allocator grants again when it is read back. -/
def Ty.Fits (E : Env ι) : (t : Ty ι) → t.denote E.X → Prop
  | .unit, _ | .bool, _ | .int _, _ | .float _, _ | .char, _ | .uuid, _ | .duration, _
  | .systemTime, _ | .notNan _, _ | .ext _, _ => True
  | .string, s => s.toByteArray.size < 2 ^ 64 ∧ E.cap (.int .u8) s.toByteArray.size = true
  | .path, p => p.length < 2 ^ 64 ∧ E.cap (.int .u8) p.length = true
  | .bytes, p => p.length < 2 ^ 64 ∧ E.cap (.int .u8) p.length = true
  | .option t, v => ∀ a, v = some a → t.Fits E a
  | .result t e, v => (∀ a, v = .ok a → t.Fits E a) ∧ (∀ x, v = .error x → e.Fits E x)
  | .bound t, v => ∀ a, v = .included a ∨ v = .excluded a → t.Fits E a
  | .wrap t, v => t.Fits E v
  | .pair s t, v => s.Fits E v.1 ∧ t.Fits E v.2
  | .array _ t, l => ∀ a ∈ l, t.Fits E a
  | .vec t, l => l.length * t.elemBytes < 2 ^ 64 ∧ E.cap t l.length = true ∧ ∀ a ∈ l, t.Fits E a
  | .btreeMap k v, l | .hashMap k v, l =>
    l.length < 2 ^ 64 ∧ E.cap (.pair k v) l.length = true ∧ ∀ e ∈ l, k.Fits E e.1 ∧ v.Fits E e.2
  | .btreeSet t, l | .hashSet t, l | .binaryHeap t, l | .vector t, l =>
    l.length < 2 ^ 64 ∧ E.cap t l.length = true ∧ ∀ e ∈ l, t.Fits E e

/-- No `SystemTime` directly inside tuples, ranges and arrays (below any other constructor the
checked skip decodes the value). -/
def Ty.checkExact : Ty ι → Bool
  | .systemTime => false
  | .pair s t => s.checkExact && t.checkExact
  | .array _ t => t.checkExact
  | _ => true

/-- No `Duration` or `SystemTime` anywhere in the type. -/
def Ty.timeFree : Ty ι → Bool
  | .duration | .systemTime => false
  | .option t | .bound t | .wrap t | .array _ t | .vec t | .btreeSet t | .hashSet t
  | .binaryHeap t | .vector t => t.timeFree
  | .result s t | .pair s t | .btreeMap s t | .hashMap s t => s.timeFree && t.timeFree
  | _ => true

/-- The same environment with an allocator that never refuses. -/
def Env.unlimited (E : Env ι) : Env ι := { E with cap := fun _ _ => true }

/-- The contract of `skip_check`: it reads a self-delimiting record, accepts whatever decoding
accepts, and accepts nothing that decoding answers with an error. -/
structure Codec.CheckLaw (c : Codec α) : Prop where
  framed : c.check.Framed
  agree : c.dec.Agree c.check
  strict : ∀ s r, c.check s = .ok ((), r) → (∃ a, c.dec s = .ok (a, r)) ∨ c.dec s = .panic

end Revision
