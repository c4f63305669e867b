import Verif.Model.Base

/-!
# The codec interface

A Rust type implementing the `revision` traits becomes a value of `Codec`.
-/

namespace Revision

/-- What a Rust type provides through the traits of `/repo/src/lib.rs:44-170`.
* `valid v`: the model value `v` is an inhabitant of the Rust type that the crate
  promises to be able to store (specification, not code);
* `enc`: `SerializeRevisioned::serialize_revisioned` into a `Vec<u8>`;
* `dec`: `DeserializeRevisioned::deserialize_revisioned`;
* `skip`: `SkipRevisioned::skip_revisioned`, `/repo/src/lib.rs:36-37`;
* `skipS`: `SkipRevisioned::skip_revisioned_slice` (on a `SliceReader`), `/repo/src/lib.rs:38-42`;
* `check`: `SkipCheckRevisioned::skip_check_revisioned`. -/
structure Codec (α : Type) where
  valid : α → Prop
  enc : α → Res Bytes
  dec : Rd α
  skip : Rd Unit
  skipS : Rd Unit
  check : Rd Unit

/-- `let _ = m(reader)?; Ok(())`: as the `check` of most impls, `/repo/src/implementations/skip.rs:18-35`. -/
def Rd.discard (m : Rd α) : Rd Unit := do
  let _ ← m
  pure ()

namespace Codec

/-- A type whose skip impls all decode and drop the value: the macro `skip_mirror_both!`,
`/repo/src/implementations/skip.rs:18-35`, and the default `skip_revisioned_slice`,
`/repo/src/lib.rs:40-42`. -/
def mirror (valid : α → Prop) (enc : α → Res Bytes) (dec : Rd α) : Codec α where
  valid := valid
  enc := enc
  dec := dec
  skip := dec.discard
  skipS := dec.discard
  check := dec.discard

/-- Models `to_vec`, `/repo/src/lib.rs:195-203`; `to_writer`, `:184-190`, hands the same bytes to
a writer (`Model/Sink`). -/
def toVec (c : Codec α) (v : α) : Res Bytes := c.enc v

/-- Models `from_slice`, `/repo/src/lib.rs:176-181`: trailing bytes are ignored. -/
def fromSlice (c : Codec α) (s : Bytes) : Res α :=
  match c.dec s with
  | .ok (a, _) => .ok a
  | .err e => .err e
  | .panic => .panic

/-- Models `skip_slice`, `/repo/src/lib.rs:71-76`: the number of bytes consumed. -/
def skipSlice (c : Codec α) (s : Bytes) : Res Nat :=
  match c.skipS s with
  | .ok (_, r) => .ok (s.length - r.length)
  | .err e => .err e
  | .panic => .panic

/-- Models `skip_check_slice`, `/repo/src/lib.rs:78-84`. -/
def skipCheckSlice (c : Codec α) (s : Bytes) : Res Nat :=
  match c.check s with
  | .ok (_, r) => .ok (s.length - r.length)
  | .err e => .err e
  | .panic => .panic

end Codec

/-- Serialise a list of values one after another (`for x in it { x.serialize_revisioned(w)?; }`):
as in `/repo/src/implementations/vecs.rs:54-72`. -/
def encList (enc : α → Res Bytes) : List α → Res Bytes
  | [] => .ok []
  | a :: as => do
    let b ← enc a
    let bs ← encList enc as
    pure (b ++ bs)

end Revision
