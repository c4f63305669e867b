import Verif.Model.Ty

/-!
# Counting the steps of a reader

The readers of `Verif.Model.Std` and `Verif.Model.Ty` again, this time counting.  One step is one call of
`deserialize_revisioned`, `skip_revisioned`, `skip_revisioned_slice` or `skip_check_revisioned` of some type;
and for vectors read in bulk one step is one element made of the bytes read.  Not counted: what the collections do
with the elements they are given (comparing, hashing) and allocations (C94).  What counts how much is a `Tariff`: the one
above, `Tariff.calls`, is the default, and `Tariff.copies` counts instead the bytes copied into the buffers of optimised records.
`Ct.erase` forgets the count; `Verif.Props.Work` proves that what remains is the reader.
-/

namespace Revision

/-- A reader that also says how many steps it took, successful or not:
a reading function of `/repo/src/lib.rs:33`, `:46`, `:159`. -/
structure Ct (α : Type) where
  run : Bytes → Nat × Res (α × Bytes)

instance : CoeFun (Ct α) (fun _ => Bytes → Nat × Res (α × Bytes)) := ⟨Ct.run⟩

namespace Ct

instance : Monad Ct where
  pure a := ⟨fun s => (0, .ok (a, s))⟩
  bind m f := ⟨fun s => match m s with
    | (k, .ok (a, r)) => (k + (f a r).1, (f a r).2)
    | (k, .err e) => (k, .err e)
    | (k, .panic) => (k, .panic)⟩

/-- A reader of bytes that counts for nothing by itself: as `/repo/src/implementations/primitives.rs:7-11`. -/
def of (m : Rd α) : Ct α := ⟨fun s => (0, m s)⟩

/-- `n` steps: one call of a trait method of `/repo/src/lib.rs:33`, `:46`, `:159`. -/
def tick (n : Nat) : Ct Unit := ⟨fun s => (n, .ok ((), s))⟩

/-- The reader without the count: as `Rd`; `/repo/src/lib.rs:159`. -/
def erase (m : Ct α) : Rd α := ⟨fun s => (m s).2⟩

/-- The number of steps on an input: as `Rd`; `/repo/src/lib.rs:159`. -/
def steps (m : Ct α) (s : Bytes) : Nat := (m s).1

/-- `Rd.mapErr`: as in `/repo/src/implementations/primitives.rs:9`. -/
def mapErr (f : Err → Err) (m : Ct α) : Ct α := ⟨fun s => ((m s).1, (m s).2.mapErr f)⟩

/-- `Rd.discard`: as in `/repo/src/implementations/skip.rs:18-35`. -/
def discard (m : Ct α) : Ct Unit := do
  let _ ← m
  pure ()

/-- `Rd.readN`: as in `/repo/src/implementations/vecs.rs:123-131`. -/
def readN (n : Nat) (m : Ct α) : Ct (List α) :=
  match n with
  | 0 => pure []
  | n + 1 => do
    let a ← m
    let as ← readN n m
    pure (a :: as)

/-- `Rd.repeatN`: as in `/repo/src/implementations/skip.rs:268-272`. -/
def repeatN (n : Nat) (m : Ct Unit) : Ct Unit :=
  match n with
  | 0 => pure ()
  | n + 1 => do
    m
    repeatN n m

end Ct

/-- What a call and an element made of bytes read in bulk count, and what a byte of an optimised record copied into a
buffer counts: `/repo/revision-derive/src/expand/optimised/struct_codegen.rs:258-264`, `enum_codegen.rs:336-349`. -/
class Tariff where
  call : Nat
  copy : Nat

/-- Calls are counted, the methods of `/repo/src/lib.rs:33`, `:46`, `:159`. -/
instance Tariff.calls : Tariff := ⟨1, 0⟩

/-- Bytes copied into buffers are counted, `/repo/revision-derive/src/expand/optimised/struct_codegen.rs:258-264`,
`enum_codegen.rs:336-349`. -/
abbrev Tariff.copies : Tariff := ⟨0, 1⟩

variable [Tariff]

/-- The readers of a `Codec`, counted: the methods of `/repo/src/lib.rs:32-47`, `:157-163`. -/
structure Counted (α : Type) where
  dec : Ct α
  skip : Ct Unit
  skipS : Ct Unit
  check : Ct Unit

namespace Counted

/-- A type whose readers call those of no other type: one call:
as `/repo/src/implementations/primitives.rs:142-161`. -/
def leaf (c : Codec α) : Counted α where
  dec := do Ct.tick Tariff.call; Ct.of c.dec
  skip := do Ct.tick Tariff.call; Ct.of c.skip
  skipS := do Ct.tick Tariff.call; Ct.of c.skipS
  check := do Ct.tick Tariff.call; Ct.of c.check

/-- A vector read in bulk: decoding makes each element of the bytes, skipping passes over them.
`/repo/src/implementations/specialised.rs:47-129`, `:137-277`. -/
def bulk (c : Codec (List α)) : Counted (List α) :=
  let dec : Ct (List α) := do
    Ct.tick Tariff.call
    let l ← Ct.of c.dec
    Ct.tick (Tariff.call * l.length)
    pure l
  { leaf c with dec, check := dec.discard }

/-- One call that makes the calls of `c`: as `/repo/src/implementations/boxes.rs:7-25`. -/
def call (c : Counted α) : Counted α where
  dec := do Ct.tick Tariff.call; c.dec
  skip := do Ct.tick Tariff.call; c.skip
  skipS := do Ct.tick Tariff.call; c.skipS
  check := do Ct.tick Tariff.call; c.check

/-- Two values one after the other, `pairC`, `/repo/src/implementations/tuple.rs:4-88`. -/
def both (a : Counted α) (b : Counted β) : Counted (α × β) where
  dec := do
    let x ← a.dec
    let y ← b.dec
    pure (x, y)
  skip := do
    a.skip
    b.skip
  skipS := do
    a.skipS
    b.skipS
  check := do
    a.check
    b.check

/-- `arrayC`, `/repo/src/implementations/arrays.rs:6-60`. -/
def array (n : Nat) (c : Counted α) : Counted (List α) where
  dec := Ct.readN n c.dec
  skip := Ct.repeatN n c.skip
  skipS := Ct.repeatN n c.skipS
  check := Ct.repeatN n c.check

/-- `wrapC`, `/repo/src/implementations/boxes.rs:7-58` and the others it cites, skips in `skip.rs:417-607`. -/
def wrap (c : Counted α) : Counted α where
  dec := c.dec
  skip := c.skip
  skipS := c.skipS
  check := c.dec.discard

/-- `optionC`, `/repo/src/implementations/option.rs:7-36`. -/
def option (cfg : Cfg) (c : Counted α) : Counted (Option α) :=
  let dec : Ct (Option α) := do
    let t ← Ct.of (decInt cfg .u8)
    if t = 0 then pure none
    else if t = 1 then do
      let a ← c.dec
      pure (some a)
    else Ct.of (Rd.fail .deserialize)
  let skip (m : Ct Unit) : Ct Unit := do
    let t ← Ct.of (decInt cfg .u8)
    if t = 0 then pure ()
    else if t = 1 then m
    else Ct.of (Rd.fail .deserialize)
  { dec, skip := skip c.skip, skipS := skip c.skipS, check := dec.discard }

/-- `resultC`, `/repo/src/implementations/result.rs:7-35`. -/
def result (cfg : Cfg) (c : Counted α) (d : Counted β) : Counted (Except β α) :=
  let dec : Ct (Except β α) := do
    let t ← Ct.of (readU32 cfg)
    if t = 0 then do
      let a ← c.dec.mapErr toDeserialize
      pure (.ok a)
    else if t = 1 then do
      let e ← d.dec.mapErr toDeserialize
      pure (.error e)
    else Ct.of (Rd.fail .deserialize)
  let skip (m n : Ct Unit) : Ct Unit := do
    let t ← Ct.of (readU32 cfg)
    if t = 0 then m else if t = 1 then n else Ct.of (Rd.fail .deserialize)
  { dec, skip := skip c.skip d.skip, skipS := skip c.skipS d.skipS, check := dec.discard }

/-- `boundC`, `/repo/src/implementations/bound.rs:8-42`. -/
def bound (cfg : Cfg) (c : Counted α) : Counted (Bnd α) :=
  let dec : Ct (Bnd α) := do
    let t ← Ct.of (readU32 cfg)
    if t = 0 then pure .unbounded
    else if t = 1 then do
      let a ← c.dec.mapErr toDeserialize
      pure (.included a)
    else if t = 2 then do
      let a ← c.dec.mapErr toDeserialize
      pure (.excluded a)
    else Ct.of (Rd.fail .deserialize)
  let skip (m : Ct Unit) : Ct Unit := do
    let t ← Ct.of (readU32 cfg)
    if t = 0 then pure () else if t = 1 then m else if t = 2 then m
    else Ct.of (Rd.fail .deserialize)
  { dec, skip := skip c.skip, skipS := skip c.skipS, check := dec.discard }

/-- `vecC`, `/repo/src/implementations/vecs.rs:54-72`. -/
def vec (cfg : Cfg) (cap : Nat → Bool) (c : Counted α) : Counted (List α) :=
  let dec : Ct (List α) := do
    let n ← Ct.of (readLen cfg)
    if n = 0 then pure []
    else do
      Ct.of (Rd.alloc (cap n))
      Ct.readN n c.dec
  let skip (m : Ct Unit) : Ct Unit := do
    let n ← Ct.of (readLen cfg)
    Ct.repeatN n m
  { dec, skip := skip c.skip, skipS := skip c.skipS, check := dec.discard }

/-- `collC`, `/repo/src/implementations/collections.rs:9-247`. -/
def coll (cfg : Cfg) (cap : Nat → Bool) (c : Counted α) (build : List α → List α) : Counted (List α) :=
  let dec : Ct (List α) := do
    let n ← Ct.of (readLen cfg)
    Ct.of (Rd.alloc (cap n))
    let l ← Ct.readN n c.dec
    pure (build l)
  let skip (m : Ct Unit) : Ct Unit := do
    let n ← Ct.of (readLen cfg)
    Ct.repeatN n m
  { dec, skip := skip c.skip, skipS := skip c.skipS, check := dec.discard }

end Counted

/-- `vecOf`, `/repo/src/implementations/vecs.rs:21-52`. -/
def countedVec (cfg : Cfg) (E : Env ι) : (t : Ty ι) → Counted (t.denote E.X) → Counted (List (t.denote E.X))
  | .bool, c => if cfg.specialised then .bulk (boolsC cfg (E.cap .bool)) else .call (.vec cfg (E.cap .bool) c)
  | .int k, c =>
    if cfg.specialised && k != .usize && k != .isize then .bulk (bulkC cfg (E.cap (.int k)) k.bits (k.bits / 8))
    else .call (.vec cfg (E.cap (.int k)) c)
  | .float f, c =>
    if cfg.specialised then .bulk (bulkC cfg (E.cap (.float f)) (8 * f.bytes) f.bytes)
    else .call (.vec cfg (E.cap (.float f)) c)
  | .uuid, c =>
    if cfg.specialised then .bulk (bulkC cfg (E.cap .uuid) 128 16) else .call (.vec cfg (E.cap .uuid) c)
  | t, c => .call (.vec cfg (E.cap t) c)

/-- `Ty.codec`, counted; `x` are the counted impls of the further types:
the impls of `/repo/src/implementations/mod.rs:1-31`. -/
def Ty.counted (cfg : Cfg) (E : Env ι) (x : (i : ι) → Counted (E.X i)) : (t : Ty ι) → Counted (t.denote E.X)
  | .option t => .call (.option cfg (t.counted cfg E x))
  | .result t e => .call (.result cfg (t.counted cfg E x) (e.counted cfg E x))
  | .bound t => .call (.bound cfg (t.counted cfg E x))
  | .wrap t => .call (.wrap (t.counted cfg E x))
  | .pair s t => .call (.both (s.counted cfg E x) (t.counted cfg E x))
  | .array n t => .call (.array n (t.counted cfg E x))
  | .vec t => countedVec cfg E t (t.counted cfg E x)
  | .btreeMap k v =>
    .call (.coll cfg (E.cap (.pair k v)) (.both (k.counted cfg E x) (v.counted cfg E x)) (btreeBuild (E.cmp k) Prod.fst))
  | .btreeSet k => .call (.coll cfg (E.cap k) (k.counted cfg E x) (btreeBuild (E.cmp k) id))
  | .hashMap k v =>
    .call (.coll cfg (E.cap (.pair k v)) (.both (k.counted cfg E x) (v.counted cfg E x)) (fun l => l.foldl (hashInsert (E.eq k)) []))
  | .hashSet k => .call (.coll cfg (E.cap k) (k.counted cfg E x) (fun l => l.foldl (hashSetInsert (E.eq k)) []))
  | .binaryHeap t => .call (.coll cfg (E.cap t) (t.counted cfg E x) (fun l => l.foldl (heapPush (E.cmp t)) []))
  | .vector t => .call (.coll cfg (E.cap t) (t.counted cfg E x) (fun l => l))
  | .ext i => x i
  | .unit => .leaf (Ty.unit.codec cfg E)
  | .bool => .leaf (Ty.bool.codec cfg E)
  | .int k => .leaf ((Ty.int k).codec cfg E)
  | .float f => .leaf ((Ty.float f).codec cfg E)
  | .char => .leaf (Ty.char.codec cfg E)
  | .string => .leaf (Ty.string.codec cfg E)
  | .path => .leaf (Ty.path.codec cfg E)
  | .bytes => .leaf (Ty.bytes.codec cfg E)
  | .uuid => .leaf (Ty.uuid.codec cfg E)
  | .duration => .leaf (Ty.duration.codec cfg E)
  | .systemTime => .leaf (Ty.systemTime.codec cfg E)
  | .notNan f => .leaf ((Ty.notNan f).codec cfg E)

end Revision
