import Verif.Model.Derive
import Verif.Model.Ty
import Verif.Model.Indexed

/-!
# Fields of the supported types

Connects the derived types with the closure of the supported types: a field of type `t` with any of
the attributes, and the impls those select.
-/

namespace Revision

/-- Use a codec for one type as a codec for values of all types.  Serialising a value of another
type does not compile; here it panics:
a field of one type among those of `/repo/revision-derive/src/ast/mod.rs:226-233`. -/
def Codec.embed {α V : Type} (inj : α → V) (proj : V → Option α) (c : Codec α) : Codec V where
  valid v := ∃ a, proj v = some a ∧ c.valid a
  enc v := match proj v with
    | some a => c.enc a
    | none => .panic
  dec := do
    let a ← c.dec
    pure (inj a)
  skip := c.skip
  skipS := c.skipS
  check := c.check

/-- A value with its type: what the fields of `/repo/revision-derive/src/ast/mod.rs:226-233` hold. -/
abbrev Dyn {ι : Type} (E : Env ι) := (t : Ty ι) × t.denote E.X

/-- The value, if it is of type `t`: as above. -/
def Dyn.proj {ι : Type} [DecidableEq ι] {E : Env ι} (t : Ty ι) (v : Dyn E) : Option (t.denote E.X) :=
  if h : v.1 = t then some (h ▸ v.2) else none

/-- A codec of type `t` on values of all types:
as a field uses it, `/repo/revision-derive/src/expand/ser.rs:125-146`. -/
def dynC {ι : Type} [DecidableEq ι] {E : Env ι} (t : Ty ι) (c : Codec (t.denote E.X)) : Codec (Dyn E) :=
  c.embed (fun a => ⟨t, a⟩) (Dyn.proj t)

/-- `#[revision(fixed)]` on an integer field: `FIXED_SUPPORTED_INTS`,
`/repo/revision-derive/src/expand/common.rs:131-156`, and the helpers,
`/repo/src/implementations/primitives.rs:661-690`.  On other types it does not compile. -/
def fixedIntC (cfg : Cfg) : (k : IntTy) → Codec (BitVec k.bits)
  | .u32 => fixedC 4
  | .i32 => fixedC 4
  | .u64 => fixedC 8
  | .i64 => fixedC 8
  | .u128 => fixedC 16
  | .i128 => fixedC 16
  | k => intC cfg k

/-- The `fixed` encoding of a type: `/repo/revision-derive/src/expand/common.rs:131-156`. -/
def fixedOf {ι : Type} (cfg : Cfg) (E : Env ι) : (t : Ty ι) → Codec (t.denote E.X)
  | .int k => fixedIntC cfg k
  | t => t.codec cfg E

/-- `#[revision(specialised)]`: the bulk encoding of a vector whatever the cargo feature,
`/repo/src/implementations/specialised.rs:15-30`. -/
def bulkOf {ι : Type} (cfg : Cfg) (E : Env ι) : (t : Ty ι) → Codec (t.denote E.X)
  | .vec t => vecOf ⟨cfg.fixedWidth, true⟩ E t (t.codec cfg E)
  | t => t.codec cfg E

/-- `#[revision(indexed_map)]`, `indexed_seq`, `indexed_set`: the impls of the `Indexed*Encoded`
traits, `/repo/src/optimised/indexed/serialize.rs:86-345` and, for `imbl`,
`/repo/src/implementations/imbl.rs:20-118`. -/
def indexedOf {ι : Type} (cfg : Cfg) (E : Env ι) : (t : Ty ι) → Codec (t.denote E.X)
  | .btreeMap k v => indexedBTreeMapC (E.cap k) (E.cap v) (E.cmp k) (k.codec cfg E) (v.codec cfg E)
  | .hashMap k v =>
    indexedHashMapC (E.cap (.pair k v)) (E.cap k) (E.cap v) (E.eq k) (k.codec cfg E) (v.codec cfg E)
  | .vec t => indexedSeqC (E.cap t) (t.codec cfg E)
  | .vector t => indexedSeqC (E.cap t) (t.codec cfg E)
  | .btreeSet k => indexedBTreeSetC (E.cap k) (E.cmp k) (k.codec cfg E)
  | .hashSet k => indexedHashSetC (E.cap k) (E.eq k) (k.codec cfg E)
  | t => t.codec cfg E

/-- A field of type `t`: `/repo/revision-derive/src/ast/mod.rs:226-233`. -/
def tyField {ι : Type} [DecidableEq ι] (cfg : Cfg) (E : Env ι) (name : String) (opts : FieldOptions)
    (t : Ty ι) (dflt : Nat → Res (t.denote E.X))
    (convert : Nat → t.denote E.X → List (Dyn E) → Res (List (Dyn E))) : FieldDecl (Dyn E) where
  name := name
  opts := opts
  plain := dynC t (t.codec cfg E)
  fixedLe := dynC t (fixedOf cfg E t)
  bulk := dynC t (bulkOf cfg E t)
  indexed := dynC t (indexedOf cfg E t)
  dflt := fun r => do
    let a ← dflt r
    pure ⟨t, a⟩
  convert := fun r v this => match Dyn.proj t v with
    | some a => convert r a this
    | none => .panic

end Revision
