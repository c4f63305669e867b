import Verif.Model.Std

/-!
# The closure of the supported types

`Ty` is the syntax of the Rust types the crate supports, nested to any depth; `Ty.denote` is the
type of their values and `Ty.codec` the trait implementations the compiler would select.
-/

namespace Revision

/-- `f32` and `f64`: `/repo/src/implementations/primitives.rs:596-640`. -/
inductive FloatTy where
  | f32 | f64
  deriving DecidableEq, Repr

/-- `size_of::<F>()`: `/repo/src/implementations/primitives.rs:596-640`. -/
@[reducible] def FloatTy.bytes : FloatTy → Nat
  | f32 => 4
  | f64 => 8

/-- Types with `SerializeRevisioned`/`DeserializeRevisioned`/`SkipRevisioned` impls in
`/repo/src/implementations/*.rs`.  `ext i` stands for any further type with its own impls (derived
types, third-party types).  Tuples nest to the right; `Range<T>` is `pair t t`; `vector` is `imbl::Vector`, and the
other `imbl` collections are their standard counterparts. -/
inductive Ty (ι : Type) where
  | unit | bool
  | int (k : IntTy)
  | float (f : FloatTy)
  | char | string | path | bytes | uuid | duration | systemTime
  | notNan (f : FloatTy)
  | option (t : Ty ι)
  | result (t e : Ty ι)
  | bound (t : Ty ι)
  | wrap (t : Ty ι)
  | pair (s t : Ty ι)
  | array (n : Nat) (t : Ty ι)
  | vec (t : Ty ι)
  | btreeMap (k v : Ty ι)
  | btreeSet (k : Ty ι)
  | hashMap (k v : Ty ι)
  | hashSet (k : Ty ι)
  | binaryHeap (t : Ty ι)
  | vector (t : Ty ι)
  | ext (i : ι)
  deriving DecidableEq

namespace Ty

/-- The values of a type.  Integers and floats are bit patterns, ordered collections the list of
their entries in iteration order: the types of `/repo/src/implementations/mod.rs:1-31`. -/
@[reducible] def denote (X : ι → Type) : Ty ι → Type
  | unit => Unit
  | bool => Bool
  | int k => BitVec k.bits
  | float f => BitVec (8 * f.bytes)
  | char => Char
  | string => String
  | path => Bytes
  | bytes => Bytes
  | uuid => BitVec 128
  | duration => BitVec 64 × BitVec 32
  | systemTime => BitVec 64 × BitVec 32
  | notNan f => BitVec (8 * f.bytes)
  | option t => Option (denote X t)
  | result t e => Except (denote X e) (denote X t)
  | bound t => Bnd (denote X t)
  | wrap t => denote X t
  | pair s t => denote X s × denote X t
  | array _ t => List (denote X t)
  | vec t => List (denote X t)
  | btreeMap k v => List (denote X k × denote X v)
  | btreeSet k => List (denote X k)
  | hashMap k v => List (denote X k × denote X v)
  | hashSet k => List (denote X k)
  | binaryHeap t => List (denote X t)
  | vector t => List (denote X t)
  | ext i => X i

end Ty

/-- Everything the codecs depend on besides the type itself:
* `X`, `extC`: the further types and their impls;
* `cap t n`: whether the allocator grants a buffer for `n` elements of type `t`;
* `cmp`: the `Ord` impl of a key type;
* `eq`: the `Eq` impl of a hash key type (hashing itself is not modelled):
the bounds and allocations of `/repo/src/implementations/collections.rs:36-52`, `:84-105`. -/
structure Env (ι : Type) where
  X : ι → Type
  extC : (i : ι) → Codec (X i)
  cap : Ty ι → Nat → Bool
  cmp : (t : Ty ι) → t.denote X → t.denote X → Ordering
  eq : (t : Ty ι) → t.denote X → t.denote X → Bool

/-- The dispatch on `TypeId` of the `Vec<T>` impls, `/repo/src/implementations/vecs.rs:21-52`,
`:84-106` and `skip.rs:212-266`: with `specialised-vectors` the listed element types are written in
bulk.  `usize` and `isize` are not in the list. -/
def vecOf (cfg : Cfg) (E : Env ι) : (t : Ty ι) → Codec (t.denote E.X) → Codec (List (t.denote E.X))
  | .bool, c => if cfg.specialised then boolsC cfg (E.cap .bool) else vecC cfg (E.cap .bool) c
  | .int k, c =>
    if cfg.specialised && k != .usize && k != .isize then
      bulkC cfg (E.cap (.int k)) k.bits (k.bits / 8)
    else vecC cfg (E.cap (.int k)) c
  | .float f, c =>
    if cfg.specialised then bulkC cfg (E.cap (.float f)) (8 * f.bytes) f.bytes
    else vecC cfg (E.cap (.float f)) c
  | .uuid, c =>
    if cfg.specialised then bulkC cfg (E.cap .uuid) 128 16 else vecC cfg (E.cap .uuid) c
  | t, c => vecC cfg (E.cap t) c

/-- The trait implementations selected for a type: those of `/repo/src/implementations/mod.rs:1-31`. -/
def Ty.codec (cfg : Cfg) (E : Env ι) : (t : Ty ι) → Codec (t.denote E.X)
  | .unit => unitC
  | .bool => boolC
  | .int k => intC cfg k
  | .float f => floatC f.bytes
  | .char => charC
  | .string => stringC cfg (E.cap (.int .u8))
  | .path => pathC cfg (E.cap (.int .u8))
  | .bytes => bytesC cfg (E.cap (.int .u8))
  | .uuid => uuidC
  | .duration => durationC cfg
  | .systemTime => systemTimeC cfg
  | .notNan f => notNanC f.bytes
  | .option t => optionC cfg (t.codec cfg E)
  | .result t e => resultC cfg (t.codec cfg E) (e.codec cfg E)
  | .bound t => boundC cfg (t.codec cfg E)
  | .wrap t => wrapC (t.codec cfg E)
  | .pair s t => pairC (s.codec cfg E) (t.codec cfg E)
  | .array n t => arrayC n (t.codec cfg E)
  | .vec t => vecOf cfg E t (t.codec cfg E)
  | .btreeMap k v => btreeMapC cfg (E.cap (.pair k v)) (E.cmp k) (k.codec cfg E) (v.codec cfg E)
  | .btreeSet k => btreeSetC cfg (E.cap k) (E.cmp k) (k.codec cfg E)
  | .hashMap k v => hashMapC cfg (E.cap (.pair k v)) (E.eq k) (k.codec cfg E) (v.codec cfg E)
  | .hashSet k => hashSetC cfg (E.cap k) (E.eq k) (k.codec cfg E)
  | .binaryHeap t => binaryHeapC cfg (E.cap t) (E.cmp t) (t.codec cfg E)
  | .vector t => vectorC cfg (E.cap t) (t.codec cfg E)
  | .ext i => E.extC i

end Revision
