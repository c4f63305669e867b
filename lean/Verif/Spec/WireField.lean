import Verif.Spec.WireIndexed
import Verif.Spec.Ty
import Verif.Model.DeriveTy

/-!
# The encodings field attributes select

What `#[revision(fixed)]`, `#[revision(specialised)]` and `#[revision(indexed_map)]`, `indexed_seq`
and `indexed_set` mean for the bytes of a field, by its type.
-/

namespace Revision

open Wire

/-- The forms of the elements of a list, one by one. -/
inductive Wire.Parts (R : α → Bytes → Prop) : List α → List Bytes → Prop
  | nil : Parts R [] []
  | cons {a : α} {l : List α} {x : Bytes} {xs : List Bytes} : R a x → Parts R l xs → Parts R (a :: l) (x :: xs)

/-- The indexed form: sequences in order, sets in ascending byte order of the serialised elements,
maps in ascending byte order of the serialised keys; other types have none, and keep their own. -/
def Ty.IndexedWire (cfg : Cfg) (E : Env ι) : (t : Ty ι) → t.denote E.X → Bytes → Prop
  | .vec t, l, b | .vector t, l, b => ∃ parts, Parts (t.Wire cfg E) l parts ∧ b = indexedSeq parts
  | .btreeSet t, l, b | .hashSet t, l, b =>
    ∃ parts sorted, Parts (t.Wire cfg E) l parts ∧ sorted.Perm parts ∧ Ascending sorted ∧
      b = indexedSeq sorted
  | .btreeMap k v, l, b | .hashMap k v, l, b =>
    ∃ ks vs sorted, Parts (fun e => k.Wire cfg E e.1) l ks ∧ Parts (fun e => v.Wire cfg E e.2) l vs ∧
      sorted.Perm (ks.zip vs) ∧ Ascending (sorted.map Prod.fst) ∧ b = indexedMap sorted
  | t, v, b => t.Wire cfg E v b

/-- The fixed-width form: 32-, 64- and 128-bit integers as raw little-endian two's complement. -/
def Ty.FixedWire (cfg : Cfg) (E : Env ι) : (t : Ty ι) → t.denote E.X → Bytes → Prop
  | .int k, v, b =>
    if k ∈ [IntTy.u32, .i32, .u64, .i64, .u128, .i128] then b = le (k.bits / 8) v.toNat
    else (Ty.int k).Wire cfg E v b
  | t, v, b => t.Wire cfg E v b

/-- The bulk form of a vector, whether or not the cargo feature is on. -/
def Ty.BulkWire (cfg : Cfg) (E : Env ι) : (t : Ty ι) → t.denote E.X → Bytes → Prop
  | .vec t, l, b => Counted cfg l.length (t.WireElems ⟨cfg.fixedWidth, true⟩ E (t.Wire cfg E) l) b
  | t, v, b => t.Wire cfg E v b

/-- The form of a field: at a legacy revision `fixed` and `specialised` apply; at an optimised one
the `indexed_*` attributes do, in structs. -/
def Ty.FieldWire (cfg : Cfg) (E : Env ι) (optimised inStruct : Bool) (o : FieldOptions) (t : Ty ι)
    (v : t.denote E.X) (b : Bytes) : Prop :=
  if optimised then
    if inStruct ∧ (o.indexedMap ∨ o.indexedSeq ∨ o.indexedSet) then t.IndexedWire cfg E v b
    else t.Wire cfg E v b
  else if o.fixed then t.FixedWire cfg E v b
  else if o.specialised then t.BulkWire cfg E v b
  else t.Wire cfg E v b

/-- The fields have supported types, and the values are well-formed values of those types. -/
inductive Typed [DecidableEq ι] (cfg : Cfg) (E : Env ι) : List (FieldDecl (Dyn E)) → List (Dyn E) → Prop
  | nil : Typed cfg E [] []
  | cons {name opts t dflt convert fs vs} {a : t.denote E.X} : t.WF E a → t.Fits E a → Typed cfg E fs vs →
      Typed cfg E (tyField cfg E name opts t dflt convert :: fs) (⟨t, a⟩ :: vs)

/-- `bs` are the forms of the values `vs` of fields with attributes `os`. -/
inductive FieldParts (cfg : Cfg) (E : Env ι) (optimised inStruct : Bool) :
    List FieldOptions → List (Dyn E) → List Bytes → Prop
  | nil : FieldParts cfg E optimised inStruct [] [] []
  | cons {o os v vs b bs} : v.1.FieldWire cfg E optimised inStruct o v.2 b →
      FieldParts cfg E optimised inStruct os vs bs →
      FieldParts cfg E optimised inStruct (o :: os) (v :: vs) (b :: bs)

end Revision
