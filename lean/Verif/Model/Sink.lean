import Verif.Model.Ty

/-!
# Writing to an arbitrary `std::io::Write`

`to_writer` and `serialize_revisioned` are generic over `W: std::io::Write`.  `Codec.enc` models them for a
`Vec<u8>`.  Here the writer is arbitrary: it may accept fewer bytes than offered, be interrupted, fail,
or be full.  A serialiser is the sequence of its calls to the writer (`Wr`); the definitions below are
the serialisers of `Verif.Model.Prim`, `Verif.Model.Std` and `Verif.Model.Ty` again, call by call.
-/

namespace Revision

/-- What one call of `Write::write` does: accept up to `n` of the bytes offered (`Ok(0)` for `n = 0`),
return `ErrorKind::Interrupted`, or return another error: what the `W: Write` of `/repo/src/lib.rs:154` may do. -/
inductive WEv where
  | accept (n : Nat)
  | interrupted
  | failed
  deriving DecidableEq, Repr

/-- A `W: std::io::Write`: what its next `write` calls do and, after those, how many bytes it still has
room for (`none`: any number, as a `Vec<u8>`; `some n`: as a `&mut [u8]` of `n` bytes):
the `W: Write` of `/repo/src/lib.rs:154`. -/
structure Sink where
  evs : List WEv
  room : Option Nat
  deriving DecidableEq, Repr

/-- The result of one `write` call: what the `W: Write` of `/repo/src/lib.rs:154` returns. -/
inductive WRes where
  | ok (n : Nat)
  | interrupted
  | failed
  deriving DecidableEq, Repr

namespace Sink

/-- A `Vec<u8>`: the writer of `/repo/src/lib.rs:195-202`. -/
def vec : Sink := ⟨[], none⟩

/-- A `&mut [u8]` of `n` bytes: a writer for `/repo/src/lib.rs:185-192`. -/
def slice (n : Nat) : Sink := ⟨[], some n⟩

/-- One call `writer.write(b)`: as in `/repo/src/implementations/primitives.rs:146`. -/
def write (b : Bytes) (w : Sink) : WRes × Sink :=
  match w.evs with
  | .accept n :: evs => (.ok (min n b.length), { w with evs := evs })
  | .interrupted :: evs => (.interrupted, { w with evs := evs })
  | .failed :: evs => (.failed, { w with evs := evs })
  | [] => match w.room with
    | none => (.ok b.length, w)
    | some n => (.ok (min n b.length), { w with room := some (n - min n b.length) })

theorem write_evs (b : Bytes) (w : Sink) : (w.write b).2.evs.length = w.evs.length - 1 := by
  unfold write
  split <;> try simp_all
  split <;> simp_all

/-- Models the provided method `Write::write_all` of the standard library: while bytes are left,
`write` them; `Ok(0)` is the error `WriteZero`, `Interrupted` is ignored, any other error is returned.
All errors become `Error::Io`.  Returns the result, the bytes accepted, and the writer.
(`Vec<u8>` and `&mut [u8]` override the method with the same effect.):
as in `/repo/src/implementations/primitives.rs:40`, `:221`. -/
def writeAll (b : Bytes) (w : Sink) : Res Unit × Bytes × Sink :=
  if hb : b = [] then (.ok (), [], w)
  else
    match h : w.write b with
    | (.ok n, w') =>
      if hn : n = 0 then (.err .io, [], w')
      else
        let r := writeAll (b.drop n) w'
        (r.1, b.take n ++ r.2.1, r.2.2)
    | (.interrupted, w') => writeAll b w'
    | (.failed, w') => (.err .io, [], w')
termination_by b.length + w.evs.length
decreasing_by
  · have h1 := write_evs b w
    rw [h] at h1
    have : b.length ≠ 0 := by simpa using hb
    simp only [List.length_drop]
    simp only at h1
    omega
  · have h1 := write_evs b w
    rw [h] at h1
    simp only at h1
    have : w.evs.length ≠ 0 := by
      intro h0
      rw [List.length_eq_zero_iff] at h0
      simp only [write, h0] at h
      split at h <;> simp at h
    omega

end Sink

/-- A call of a serialiser to its writer: `write_all(b)` or `write(b)`:
as in `/repo/src/implementations/primitives.rs:40`, `:146`. -/
inductive WOp where
  | all (b : Bytes)
  | once (b : Bytes)
  deriving DecidableEq, Repr

/-- The bytes of a call: as in `/repo/src/implementations/primitives.rs:40`, `:146`. -/
def WOp.bytes : WOp → Bytes
  | .all b => b
  | .once b => b

/-- One call: `writer.write_all(b).map_err(Error::Io)?`, or `writer.write(b).map_err(Error::Io)?` with the
number of bytes accepted ignored: `/repo/src/implementations/primitives.rs:40`, `:146`. -/
def WOp.run : WOp → Sink → Res Unit × Bytes × Sink
  | .all b, w => w.writeAll b
  | .once b, w => match w.write b with
    | (.ok n, w') => (.ok (), b.take n, w')
    | (.interrupted, w') => (.err .io, [], w')
    | (.failed, w') => (.err .io, [], w')

/-- Calls one after another, stopping at the first error: as in `/repo/src/implementations/tuple.rs:4-88`. -/
def runOps : List WOp → Sink → Res Unit × Bytes × Sink
  | [], w => (.ok (), [], w)
  | o :: os, w =>
    let r := o.run w
    match r.1 with
    | .ok () =>
      let r' := runOps os r.2.2
      (r'.1, r.2.1 ++ r'.2.1, r'.2.2)
    | e => (e, r.2)

/-- A serialiser: the calls it makes, and the result it returns after them if they all succeed:
a `serialize_revisioned` of `/repo/src/lib.rs:154`. -/
structure Wr where
  ops : List WOp
  fin : Res Unit
  deriving DecidableEq, Repr

namespace Wr

/-- The serialiser run on a writer: its result, the bytes accepted, and the writer:
as in `/repo/src/lib.rs:185-192`. -/
def run (x : Wr) (w : Sink) : Res Unit × Bytes × Sink :=
  let r := runOps x.ops w
  match r.1 with
  | .ok () => (x.fin, r.2)
  | e => (e, r.2)

/-- Nothing to write: as `/repo/src/implementations/tuple.rs:49-62`. -/
def done : Wr := ⟨[], .ok ()⟩

/-- `return Err(e)`: as in `/repo/src/implementations/path.rs:10-18`. -/
def fail (e : Err) : Wr := ⟨[], .err e⟩

/-- `writer.write_all(b).map_err(Error::Io)`: as in `/repo/src/implementations/primitives.rs:40`, `:221`. -/
def all (b : Bytes) : Wr := ⟨[.all b], .ok ()⟩

/-- `writer.write(b).map_err(Error::Io)?; Ok(())`: `/repo/src/implementations/primitives.rs:146`. -/
def once (b : Bytes) : Wr := ⟨[.once b], .ok ()⟩

/-- `x?; y`: as in `/repo/src/implementations/duration.rs:8-14`. -/
def andThen (x y : Wr) : Wr :=
  match x.fin with
  | .ok () => ⟨x.ops ++ y.ops, y.fin⟩
  | _ => x

/-- `for x in it { x.serialize_revisioned(w)?; } Ok(())`: as in `/repo/src/implementations/vecs.rs:54-72`. -/
def each (f : α → Wr) : List α → Wr
  | [] => done
  | a :: as => (f a).andThen (each f as)

/-- `len.serialize_revisioned(writer)` for a `usize`: `/repo/src/implementations/primitives.rs:170-175`. -/
def len (cfg : Cfg) (n : Nat) : Wr := all (encLen cfg n)

/-- `serialize_bytes`, `/repo/src/implementations/vecs.rs:7-13`. -/
def bytes (cfg : Cfg) (b : Bytes) : Wr := (len cfg b.length).andThen (all b)

/-- The length, then the elements: the generic `Vec<T>` (`/repo/src/implementations/vecs.rs:54-72`) and the
collections (`collections.rs:17-34`, `:67-84`, `:118-133`, `:164-179`, `:211-224`, `imbl.rs`), which all
return early for an empty one. -/
def elems (cfg : Cfg) (f : α → Wr) (l : List α) : Wr :=
  (len cfg l.length).andThen (if l.length = 0 then done else each f l)

/-- Bulk `Vec<T>`, `/repo/src/implementations/specialised.rs:47-83`, `:179-188`, `uuid.rs:36-66`: the length,
early return, one `write_all` of all elements. -/
def bulk (cfg : Cfg) (w : Nat) (l : List (BitVec W)) : Wr :=
  (len cfg l.length).andThen
    (if l.length = 0 then done else all (l.flatMap fun v => leBytes w v.toNat))

/-- Bit-packed `Vec<bool>`, `/repo/src/implementations/specialised.rs:223-250`. -/
def bools (cfg : Cfg) (l : List Bool) : Wr :=
  (len cfg l.length).andThen (if l.length = 0 then done else all (packBools (divCeil8 l.length) l))

end Wr

/-- The dispatch of `Vec<T>::serialize_revisioned`, `/repo/src/implementations/vecs.rs:21-52`. -/
def vecW (cfg : Cfg) (E : Env ι) : (t : Ty ι) → (t.denote E.X → Wr) → List (t.denote E.X) → Wr
  | .bool, f, l => if cfg.specialised then Wr.bools cfg l else Wr.elems cfg f l
  | .int k, f, l =>
    if cfg.specialised && k != .usize && k != .isize then Wr.bulk cfg (k.bits / 8) l
    else Wr.elems cfg f l
  | .float fl, f, l => if cfg.specialised then Wr.bulk cfg fl.bytes l else Wr.elems cfg f l
  | .uuid, f, l => if cfg.specialised then Wr.bulk cfg 16 l else Wr.elems cfg f l
  | _, f, l => Wr.elems cfg f l

/-- `v.serialize_revisioned(writer)` for any writer; `ext i` gives the serialisers of the further
types: the impls of `/repo/src/implementations/mod.rs:1-31`. -/
def Ty.writes (cfg : Cfg) (E : Env ι) (ext : (i : ι) → E.X i → Wr) : (t : Ty ι) → t.denote E.X → Wr
  | .unit, _ => .done
  -- `/repo/src/implementations/primitives.rs:142-149`: `w.write(&[v])`, not `write_all`
  | .bool, v => .once [if v then 1 else 0]
  -- `:170-587`: every integer is one `write_all`
  | .int k, v => .all (encInt cfg k v)
  -- `:596-639`
  | .float f, v => .all (leBytes f.bytes v.toNat)
  -- `string.rs:58-64`
  | .char, c => .all (String.utf8EncodeChar c)
  | .string, s => .bytes cfg (strBytes s)
  -- `path.rs:10-18`
  | .path, p => match fromUtf8 p with
    | .ok _ => .bytes cfg p
    | _ => .fail .invalidPath
  | .bytes, b => .bytes cfg b
  -- `uuid.rs:9-14`
  | .uuid, v => .all (leBytes 16 v.toNat)
  -- `duration.rs:8-14`
  | .duration, d => (Wr.all (encInt cfg .u64 d.1)).andThen (.all (encInt cfg .u32 d.2))
  -- `system_time.rs:8-16`
  | .systemTime, t =>
    if t.1.toInt < 0 then .fail .serialize
    else (Wr.all (encInt cfg .u64 t.1)).andThen (.all (encInt cfg .u32 t.2))
  -- `notnan.rs:7-14`
  | .notNan f, v => .all (leBytes f.bytes v.toNat)
  -- `option.rs:7-20`
  | .option _, none => .all (encInt cfg .u8 0)
  | .option t, some a => (Wr.all (encInt cfg .u8 1)).andThen (t.writes cfg E ext a)
  -- `result.rs:7-21`
  | .result t _, .ok a => (Wr.all (encU32 cfg 0)).andThen (t.writes cfg E ext a)
  | .result _ e, .error b => (Wr.all (encU32 cfg 1)).andThen (e.writes cfg E ext b)
  -- `bound.rs:8-23`
  | .bound _, .unbounded => .all (encU32 cfg 0)
  | .bound t, .included a => (Wr.all (encU32 cfg 1)).andThen (t.writes cfg E ext a)
  | .bound t, .excluded a => (Wr.all (encU32 cfg 2)).andThen (t.writes cfg E ext a)
  | .wrap t, a => t.writes cfg E ext a
  | .pair s t, v => (s.writes cfg E ext v.1).andThen (t.writes cfg E ext v.2)
  -- `arrays.rs:8-19`
  | .array _ t, l => .each (t.writes cfg E ext) l
  | .vec t, l => vecW cfg E t (t.writes cfg E ext) l
  | .btreeMap k v, l =>
    .elems cfg (fun p => (k.writes cfg E ext p.1).andThen (v.writes cfg E ext p.2)) l
  | .btreeSet k, l => .elems cfg (k.writes cfg E ext) l
  | .hashMap k v, l =>
    .elems cfg (fun p => (k.writes cfg E ext p.1).andThen (v.writes cfg E ext p.2)) l
  | .hashSet k, l => .elems cfg (k.writes cfg E ext) l
  | .binaryHeap t, l => .elems cfg (t.writes cfg E ext) l
  | .vector t, l => .elems cfg (t.writes cfg E ext) l
  | .ext i, x => ext i x

end Revision
