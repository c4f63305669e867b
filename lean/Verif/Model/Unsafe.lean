import Verif.Model.Ty

/-!
# The `unsafe` blocks of the readers and writers of vectors

The other modules give the bulk impls of `Vec<T>` by what they are meant to do.  Here they are modelled on memory: what a
`Vec` owns, the byte views made of it with raw pointers, and the promises made to the compiler.  An `unsafe` operation
whose documented requirements do not hold is the outcome `ub`.

The reader is an arbitrary piece of safe code: an `impl Read` may claim to have filled a buffer it has not touched.
-/

namespace Revision.Unsafe

/-- What running code that contains `unsafe` blocks comes to.  `ub`: undefined behaviour:
for the `unsafe` blocks of `/repo/src/implementations/specialised.rs:68`, `:104`, `:122`, `:184`, `:213`. -/
inductive Out (α : Type) where
  | ok (a : α)
  | err (e : Err)
  | panic
  | ub
  deriving DecidableEq, Repr

/-- Code using a reader with states `σ`: as `/repo/src/implementations/specialised.rs:86-125`. -/
structure Run (σ α : Type) where
  run : σ → Out α × σ

instance : Monad (Run σ) where
  pure a := ⟨fun s => (.ok a, s)⟩
  bind m f := ⟨fun s => match m.run s with
    | (.ok a, s) => (f a).run s
    | (.err e, s) => (.err e, s)
    | (.panic, s) => (.panic, s)
    | (.ub, s) => (.ub, s)⟩

/-- `return Err(e)`: as in `/repo/src/implementations/specialised.rs:160-161`. -/
def fail (e : Err) : Run σ α := ⟨fun s => (.err e, s)⟩

/-- An `unsafe` operation that requires `c`:
the `unsafe` blocks of `/repo/src/implementations/specialised.rs:68`, `:104`, `:122`, `:184`, `:213`. -/
def requires (c : Bool) : Run σ Unit := ⟨fun s => (if c then .ok () else .ub, s)⟩

/-! ### Memory -/

/-- How the values of a type lie in memory: `value b` is the value whose bytes are `b`, if there is one:
of the types of `/repo/src/implementations/specialised.rs:282-300`. -/
structure Layout (α : Type) where
  size : Nat
  align : Nat
  bytes : α → Bytes
  value : Bytes → Option α

/-- Numbers of `w` bytes, on a little-endian or big-endian machine; every pattern of bits is one.  `Uuid` is sixteen
bytes in order on either (`#[repr(transparent)]`):
of `/repo/src/implementations/specialised.rs:282-300` and `/repo/src/implementations/uuid.rs:36-94`. -/
def numL (little : Bool) (W w : Nat) : Layout (BitVec W) where
  size := w
  align := w
  bytes v := if little then leBytes w v.toNat else (leBytes w v.toNat).reverse
  value b := some (BitVec.ofNat W (leVal (if little then b else b.reverse)))

/-- `bool`: one byte, 0 or 1: of `/repo/src/implementations/specialised.rs:223-277`. -/
def boolL : Layout Bool where
  size := 1
  align := 1
  bytes v := [if v then 1 else 0]
  value
    | [0] => some false
    | [1] => some true
    | _ => none

/-- A `Vec<T>`: room for `cap` elements, of which the first are initialised:
of `/repo/src/implementations/specialised.rs:95-125`. -/
structure Block (α : Type) where
  cap : Nat
  elems : List α
  fits : elems.length ≤ cap

namespace Block

/-- `Vec::new()`: as in `/repo/src/implementations/specialised.rs:92`. -/
def empty : Block α := ⟨0, [], Nat.le_refl 0⟩

/-- `Vec::push`: it allocates more room if there is none:
in `/repo/src/implementations/specialised.rs:124`, `:271`. -/
def push (v : Block α) (a : α) : Block α :=
  ⟨max v.cap (v.elems.length + 1), v.elems ++ [a], by simp; omega⟩

/-- The initialised bytes: of `/repo/src/implementations/specialised.rs:68-73`. -/
def memory (T : Layout α) (v : Block α) : Bytes := v.elems.flatMap T.bytes

end Block

/-- The global allocator: whether it grants room for `n` elements of a type, and for how many it then makes room:
behind `/repo/src/implementations/specialised.rs:113`, `:155`. -/
structure Heap where
  grant : Nat → Bool
  room : Nat → Nat
  enough : ∀ n, n ≤ room n

/-- `Vec::with_capacity(n)` for elements of `size` bytes: it panics if they take more than `isize::MAX` bytes; a refused
allocation (an abort) is a panic here too: in `/repo/src/implementations/specialised.rs:113`, `:155`, `:267`. -/
def withCapacity (H : Heap) (size n : Nat) : Run σ (Block α) :=
  ⟨fun s => (if H.grant n && n * size < 2 ^ 63 then .ok ⟨H.room n, [], Nat.zero_le _⟩ else .panic, s)⟩

/-- `vec![a; n]`: in `/repo/src/implementations/specialised.rs:102`, `:264`. -/
def filled (H : Heap) (size n : Nat) (a : α) : Run σ (Block α) :=
  ⟨fun s => (if H.grant n && n * size < 2 ^ 63 then
    .ok ⟨H.room n, List.replicate n a, by simpa using H.enough n⟩ else .panic, s)⟩

/-- `std::slice::from_raw_parts(v.as_ptr().cast::<u8>(), n)` and `from_raw_parts_mut`: the `n` bytes must be initialised
bytes of the vector, and no more than `isize::MAX`:
in `/repo/src/implementations/specialised.rs:68-73`, `:104-107`, `:184-186`. -/
def asBytes (T : Layout α) (v : Block α) (n : Nat) : Run σ Bytes := do
  requires (n ≤ (v.memory T).length && n < 2 ^ 63)
  pure ((v.memory T).take n)

/-- The values with these bytes, if all are values:
read through `/repo/src/implementations/specialised.rs:104-108`. -/
def valuesOf (T : Layout α) : List Bytes → Option (List α)
  | [] => some []
  | b :: bs => match T.value b, valuesOf T bs with
    | some a, some l => some (a :: l)
    | _, _ => none

/-- The vector after its first bytes have become `b` through a `&mut [u8]`: what it owns must be values of its type:
through `/repo/src/implementations/specialised.rs:104-108`. -/
def store (T : Layout α) (v : Block α) (b : Bytes) : Run σ (Block α) :=
  match valuesOf T (splitN T.size v.elems.length (b ++ (v.memory T).drop b.length)) with
  | some l => if h : l.length ≤ v.cap then pure ⟨v.cap, l, h⟩ else ⟨fun s => (.ub, s)⟩
  | none => ⟨fun s => (.ub, s)⟩

/-- `Vec::from_raw_parts(ptr.cast::<U>(), len, cap)` from the parts of a vector: the same size and alignment of the
elements, the capacity that was allocated, and `len` initialised values:
in `/repo/src/implementations/specialised.rs:213`. -/
def fromRawParts (T : Layout α) (U : Layout β) (v : Block α) (len cap : Nat) : Run σ (Block β) := do
  requires (T.size == U.size && T.align == U.align && cap == v.cap && len ≤ v.elems.length)
  match valuesOf U ((v.elems.take len).map T.bytes) with
  | some l => if h : l.length ≤ v.cap then pure ⟨v.cap, l, h⟩ else ⟨fun s => (.ub, s)⟩
  | none => ⟨fun s => (.ub, s)⟩

/-! ### Readers -/

/-- An `impl Read`, as far as the code below uses it: `read_exact(buf)`, with what `buf` holds afterwards, and
`take(n).read_to_end(v)`, with the number it returns.  The impl is safe code: it cannot change the length of the slice it
is given and has no undefined behaviour of its own.  Nothing else is assumed: it may fill `buf` or not:
of `/repo/src/implementations/specialised.rs:107`, `:157-159`. -/
structure Source (σ : Type) where
  readExact : Bytes → Run σ Bytes
  readToEnd : Nat → Block (BitVec 8) → Run σ (Nat × Block (BitVec 8))
  exact_length : ∀ buf s b s', (readExact buf).run s = (.ok b, s') → b.length = buf.length
  exact_safe : ∀ buf s, ((readExact buf).run s).1 ≠ .ub
  end_safe : ∀ n v s, ((readToEnd n v).run s).1 ≠ .ub

variable {σ α β : Type}

/-- The loop `for _ in 0..n { let v = ..; assert_unchecked(vec.len() < vec.capacity()); vec.push(v) }`,
`/repo/src/implementations/vecs.rs:123-131`, `/repo/src/implementations/collections.rs:94-102`, `:187-195`,
`/repo/src/implementations/imbl.rs:142-150`, `:198-207`, `:251-259`, `:307-316`, `:359-367`,
`/repo/src/implementations/decimal.rs:75-86`, `/repo/src/implementations/specialised.rs:113-125`. -/
def pushLoop (dec : Run σ α) : Nat → Block α → Run σ (Block α)
  | 0, v => pure v
  | n + 1, v => do
    let a ← dec
    requires (v.elems.length < v.cap)
    pushLoop dec n (v.push a)

/-- The generic `Vec<T>`, `/repo/src/implementations/vecs.rs:111-133`, and the vectors of decimals,
`/repo/src/implementations/decimal.rs:64-89`. -/
def decElems (H : Heap) (size : Nat) (len : Run σ Nat) (dec : Run σ α) : Run σ (Block α) := do
  let n ← len
  if n = 0 then pure .empty
  else do
    let v ← withCapacity H size n
    pushLoop dec n v

/-- The collections that read into a vector and build from it, `/repo/src/implementations/collections.rs:86-105`,
`:179-198`, `/repo/src/implementations/imbl.rs:134-152`, `:190-210`, `:243-262`, `:299-319`, `:351-370`. -/
def decColl (H : Heap) (size : Nat) (len : Run σ Nat) (dec : Run σ α) (build : List α → β) : Run σ β := do
  let n ← len
  let v ← withCapacity H size n
  let v ← pushLoop dec n v
  pure (build v.elems)

/-- The bulk `Vec<T>` of numbers on a little-endian machine, `/repo/src/implementations/specialised.rs:86-108`, and of
`Uuid` on any, `/repo/src/implementations/uuid.rs:70-94`. -/
def decRaw (H : Heap) (T : Layout α) (dflt : α) (S : Source σ) (len : Run σ Nat) : Run σ (Block α) := do
  let n ← len
  if n = 0 then pure .empty
  else if n * T.size < 2 ^ 64 then do
    let v ← filled H T.size n dflt
    let buf ← asBytes T v (n * T.size)
    let b ← S.readExact buf
    store T v b
  else fail .integerOverflow

/-- The bulk `Vec<T>` of numbers on a big-endian machine, `/repo/src/implementations/specialised.rs:109-125`. -/
def decEach (H : Heap) (W w : Nat) (S : Source σ) (len : Run σ Nat) : Run σ (Block (BitVec W)) :=
  decElems H w len do
    let b ← S.readExact (List.replicate w 0)
    pure (BitVec.ofNat W (leVal b))

/-- `Vec<u8>`, `/repo/src/implementations/specialised.rs:144-165`. -/
def decU8 (H : Heap) (S : Source σ) (len : Run σ Nat) : Run σ (Block (BitVec 8)) := do
  let n ← len
  if n = 0 then pure .empty
  else do
    let v ← withCapacity H 1 n
    let (k, v) ← S.readToEnd n v
    if n ≠ k then fail .io else pure v

/-- `Vec<i8>`, `/repo/src/implementations/specialised.rs:191-217`: read as `Vec<u8>` and taken apart. -/
def decI8 (H : Heap) (little : Bool) (S : Source σ) (len : Run σ Nat) : Run σ (Block (BitVec 8)) := do
  let n ← len
  if n = 0 then pure .empty
  else do
    let v ← withCapacity H 1 n
    let (k, v) ← S.readToEnd n v
    if n ≠ k then fail .io
    else fromRawParts (numL little 8 1) (numL little 8 1) v v.elems.length v.cap

/-- `Vec<bool>`, `/repo/src/implementations/specialised.rs:252-277`: no `unsafe`; `len - i * 8` is at least 1 for every
byte of the buffer. -/
def decBits (H : Heap) (S : Source σ) (len : Run σ Nat) : Run σ (Block Bool) := do
  let n ← len
  if n = 0 then pure .empty
  else do
    let buf ← filled H 1 (divCeil8 n) (0 : UInt8)
    let b ← S.readExact buf.elems
    let v ← withCapacity H 1 n
    pure ((unpackBools n b).foldl Block.push v)

variable {ι : Type}

/-- The element types with a bulk impl, in the order of the `try_specialized!` lines of
`/repo/src/implementations/vecs.rs:94-110`.  Decimals are not a type of `Ty`. -/
def specialised : List (Ty ι) :=
  [.bool, .int .u8, .int .i8, .int .u16, .int .i16, .int .u32, .int .i32, .int .u64, .int .i64, .int .u128, .int .i128,
    .float .f32, .float .f64, .uuid]

/-- `Vec::<$ty>::deserialize_revisioned_specialised`; types without a bulk impl do not compile here:
as chosen in `/repo/src/implementations/vecs.rs:84-106`. -/
def special {X : ι → Type} (H : Heap) (little : Bool) (S : Source σ) (len : Run σ Nat) :
    (u : Ty ι) → Run σ (Block (u.denote X))
  | .bool => decBits H S len
  | .int .u8 => decU8 H S len
  | .int .i8 => decI8 H little S len
  | .int k =>
    if little then decRaw H (numL true k.bits (k.bits / 8)) 0 S len else decEach H k.bits (k.bits / 8) S len
  | .float f =>
    if little then decRaw H (numL true (8 * f.bytes) f.bytes) 0 S len else decEach H (8 * f.bytes) f.bytes S len
  | .uuid => decRaw H (numL true 128 16) 0 S len
  | _ => ⟨fun s => (.panic, s)⟩

/-- `transmute::<Vec<U>, Vec<T>>`, `/repo/src/implementations/vecs.rs:89`: the layouts of `Vec<U>` and `Vec<T>` are the
same only if the types are. -/
def transmute {X : ι → Type} [DecidableEq ι] (u t : Ty ι) (v : Block (u.denote X)) : Run σ (Block (t.denote X)) :=
  if h : u = t then pure (h ▸ v) else ⟨fun s => (.ub, s)⟩

/-- `Vec<T>::deserialize_revisioned`, `/repo/src/implementations/vecs.rs:76-134`: the first type of the list whose
`TypeId` is that of `T`.  `size` is the size of `T`. -/
def decVec {X : ι → Type} [DecidableEq ι] (cfg : Cfg) (H : Heap) (little : Bool) (S : Source σ) (len : Run σ Nat)
    (t : Ty ι) (size : Nat) (dec : Run σ (t.denote X)) : Run σ (Block (t.denote X)) :=
  match if cfg.specialised then specialised.find? (· == t) else none with
  | some u => do
    let v ← special H little S len u
    transmute u t v
  | none => decElems H size len dec

/-! ### Writers -/

/-- The bytes after the length of a bulk `Vec<T>` on a little-endian machine,
`/repo/src/implementations/specialised.rs:53-74`, `:171-188` and `/repo/src/implementations/uuid.rs:39-66`:
`len * size_of::<T>()` is not checked (it is for `Uuid`). -/
def encRaw (T : Layout α) (v : Block α) : Run σ Bytes :=
  if v.elems.length = 0 then pure []
  else if v.elems.length * T.size < 2 ^ 64 then asBytes T v (v.elems.length * T.size)
  else ⟨fun s => (.panic, s)⟩

/-- The same on a big-endian machine, `/repo/src/implementations/specialised.rs:75-81`. -/
def encEach {W : Nat} (w : Nat) (v : Block (BitVec W)) : Bytes := v.elems.flatMap fun a => leBytes w a.toNat

/-- The bytes after the length that `Vec::<$ty>::serialize_revisioned_specialised` writes; `Vec<u8>` and `Vec<bool>` have no
`unsafe`: `/repo/src/implementations/specialised.rs:137-142` and `:223-249`. -/
def specialBytes {X : ι → Type} (little : Bool) : (u : Ty ι) → Block (u.denote X) → Run σ Bytes
  | .bool, v => pure (packBools (divCeil8 v.elems.length) v.elems)
  | .int .u8, v => pure (encEach 1 v)
  | .int .i8, v => encRaw (numL little 8 1) v
  | .int k, v => if little then encRaw (numL true k.bits (k.bits / 8)) v else pure (encEach (k.bits / 8) v)
  | .float f, v => if little then encRaw (numL true (8 * f.bytes) f.bytes) v else pure (encEach f.bytes v)
  | .uuid, v => encRaw (numL true 128 16) v
  | _, _ => ⟨fun s => (.panic, s)⟩

/-- `Vec<T>::serialize_revisioned`, `/repo/src/implementations/vecs.rs:15-73`, with the cast of the reference in line 28.
`each` writes the elements one by one, `:66-72`. -/
def encVec {X : ι → Type} [DecidableEq ι] (cfg : Cfg) (little : Bool) (t : Ty ι) (each : List (t.denote X) → Res Bytes)
    (v : Block (t.denote X)) : Run σ Bytes :=
  match if cfg.specialised then specialised.find? (· == t) else none with
  | some u => do
    let w ← transmute t u v
    let b ← specialBytes little u w
    pure (encLen cfg v.elems.length ++ b)
  | none => ⟨fun s => match each v.elems with
    | .ok b => (.ok (encLen cfg v.elems.length ++ b), s)
    | .err e => (.err e, s)
    | .panic => (.panic, s)⟩

end Revision.Unsafe
