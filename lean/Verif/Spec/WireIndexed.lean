import Verif.Spec.Wire
import Verif.Spec.Search
import Verif.Spec.Derive

/-!
# The indexed layouts

The payloads of indexed sequences, sets, maps and structs, byte by byte, in terms of the serialised
forms of their parts.  All offsets are four-byte little-endian.
-/

namespace Revision

namespace Wire

/-- Where part `i` starts when the parts are laid end to end. -/
def start (parts : List Bytes) (i : Nat) : Nat := (parts.take i).flatten.length

/-- The starts of all parts, counted from `base`. -/
def starts (base : Nat) (parts : List Bytes) : Bytes :=
  (List.range parts.length).flatMap fun i => le 4 (base + start parts i)

/-- An indexed sequence: a mode byte, the count, from eight elements on a table of offsets, then the
elements. -/
def indexedSeq (parts : List Bytes) : Bytes :=
  if parts.length < 8 then [0] ++ varint parts.length ++ parts.flatten
  else [1] ++ varint parts.length ++ starts 0 parts ++ parts.flatten

/-- An indexed map: below eight entries, keys and values alternate; from eight on, a table with the
offset of each key and value in its region, the sizes of the two regions, the keys and the values. -/
def indexedMap (entries : List (Bytes × Bytes)) : Bytes :=
  let keys := entries.map Prod.fst
  let vals := entries.map Prod.snd
  if entries.length < 8 then
    [0] ++ varint entries.length ++ entries.flatMap fun e => e.1 ++ e.2
  else
    [1] ++ varint entries.length ++
      (List.range entries.length).flatMap (fun i => le 4 (start keys i) ++ le 4 (start vals i)) ++
      le 4 keys.flatten.length ++ le 4 vals.flatten.length ++ keys.flatten ++ vals.flatten

/-- An indexed struct: where each field starts, counted from the start of the table, and the fields. -/
def indexedStruct (fields : List Bytes) : Bytes := starts (4 * fields.length) fields ++ fields.flatten

/-- A revisioned struct: the revision, then the fields or, in an optimised encoding, the size of the
payload and the payload. -/
def structRecord (cfg : Cfg) (rev : Nat) (optimised indexed : Bool) (fields : List Bytes) : Bytes :=
  let payload := if indexed then indexedStruct fields else fields.flatten
  number cfg 2 rev ++ if optimised then le 4 payload.length ++ payload else fields.flatten

/-- A revisioned enum: the revision and the discriminant in its 32-bit form, or, in an optimised
encoding, one byte with the discriminant in its low five bits and the kind of payload (none, of
declared size, of stored size) in the next two, and the payload. -/
def enumRecord (cfg : Cfg) (rev : Nat) (optimised : Bool) (d : Nat) (size : VariantSize)
    (fields : List Bytes) : Bytes :=
  number cfg 2 rev ++
    if optimised then
      match size with
      | .inline => [UInt8.ofNat d]
      | .fixed _ => UInt8.ofNat (32 + d) :: fields.flatten
      | .varlen => UInt8.ofNat (64 + d) :: (le 4 fields.flatten.length ++ fields.flatten)
    else number cfg 4 d ++ fields.flatten

/-- The serialised forms of the elements of a list, one by one. -/
def Forms (enc : α → Res β) (l : List α) (forms : List β) : Prop := l.map enc = forms.map .ok

end Wire

end Revision
