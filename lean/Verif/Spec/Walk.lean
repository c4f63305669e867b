import Verif.Model.Walk
import Verif.Spec.Laws

/-!
# What a user does with walkers

`Observer`, `seqVisit`, `mapVisit` and `Ty.traverse` are programs against the walker API, not
parts of the crate; the theorems quantify over all of them.
-/

namespace Revision

/-- A way of consuming one value of type `T` from the reader: wherever `T` decodes to `a`, it
succeeds, stops where decoding stops, and reports `view a`. -/
structure Observer (c : Codec α) (β : Type) where
  read : Rd β
  view : α → β
  follows : ∀ s a r, c.dec s = .ok (a, r) → read s = .ok (view a, r)

/-- The bytes of a value that is a string of characters or bytes: UTF-8 for strings and paths. -/
def Ty.raw {X : ι → Type} : (t : Ty ι) → t.denote X → Bytes
  | .string, v => v.toByteArray.data.toList
  | .path, v => v
  | .bytes, v => v
  | .vec (.int _), l => l.map fun x => UInt8.ofNat x.toNat
  | .wrap t, v => t.raw v
  | _, _ => []

/-- Visit the items of a sequence, one observer each, until the observers or the items run out:
`while let Some(item) = walker.next_item() { … }`. -/
def seqVisit {c : Codec α} : List (Observer c β) → SeqWalker → Rd (List β × SeqWalker)
  | [], w => pure ([], w)
  | o :: os, w => do
    let (x, w) ← w.item o.read
    match x with
    | none => pure ([], w)
    | some b => do
      let (bs, w) ← seqVisit os w
      pure (b :: bs, w)

/-- Visit the entries of a map, one observer for the key and one for the value each. -/
def mapVisit {k : Codec κ} {v : Codec α} : List (Observer k β × Observer v γ) → MapWalker →
    Rd (List (β × γ) × MapWalker)
  | [], w => pure ([], w)
  | (ko, vo) :: os, w =>
    match w.nextEntry with
    | none => pure ([], w)
    | some e => do
      let (a, e) ← e.key ko.read
      let (b, w) ← e.value vo.read
      let (bs, w) ← mapVisit os w
      pure ((a, b) :: bs, w)

/-- What to do with a value met while walking: decode it, skip it, or walk into it, giving a plan
for each of its first `n` children and skipping the others. -/
inductive Plan where
  | decode
  | skip
  | into (child : Nat → Plan) (n : Nat)

/-- A decoded value with its type. -/
abbrev Seen (E : Env ι) := (t : Ty ι) × t.denote E.X

/-- Follow a plan for the items `i, i+1, …` of a sequence. -/
def seqLoop (item : Nat → Rd (List τ)) (skip : Rd Unit) : Nat → Nat → SeqWalker → Rd (List τ)
  | 0, _, w => do
    w.skipRemaining skip
    pure []
  | n + 1, i, w => do
    let (x, w) ← w.item (item i)
    match x with
    | none => pure []
    | some x => do
      let xs ← seqLoop item skip n (i + 1) w
      pure (x ++ xs)

/-- Follow a plan for the entries `i, i+1, …` of a map. -/
def mapLoop (key value : Nat → Rd (List τ)) (kskip vskip : Rd Unit) :
    Nat → Nat → MapWalker → Rd (List τ)
  | 0, _, w => do
    w.skipRemaining kskip vskip
    pure []
  | n + 1, i, w =>
    match w.nextEntry with
    | none => pure []
    | some e => do
      let (x, e) ← e.key (key i)
      let (y, w) ← e.value (value i)
      let xs ← mapLoop key value kskip vskip n (i + 1) w
      pure (x ++ (y ++ xs))

/-- Follow a plan through a value of type `t` with the walker API, collecting what is decoded.
Children of an option or result are numbered 0 (`Some`/`Ok`) and 1 (`Err`); of a sequence by
position; of a map, entry `i` has key `2 i` and value `2 i + 1` (keys cannot be walked into).
Leaves cannot be walked into, nor can bulk-encoded vectors: they are skipped. -/
def Ty.traverse (cfg : Cfg) (E : Env ι) : Ty ι → Plan → Rd (List (Seen E))
  | t, .decode => do
    let v ← (t.codec cfg E).dec
    pure [⟨t, v⟩]
  | t, .skip => do
    (t.codec cfg E).skip
    pure []
  | .wrap t, .into f n => t.traverse cfg E (.into f n)
  | .option t, .into f _ => do
    let w ← OptionWalker.new cfg
    if w.isSome then w.intoSome (t.traverse cfg E (f 0)) else pure []
  | .result t e, .into f _ => do
    let w ← ResultWalker.new cfg
    if w.isOk then w.intoOk (t.traverse cfg E (f 0)) else w.intoErr (e.traverse cfg E (f 1))
  | .vec t, .into f n =>
    if vecUsesBulkEncoding cfg t then do
      ((Ty.vec t).codec cfg E).skip
      pure []
    else do
      let w ← SeqWalker.new cfg
      seqLoop (fun i => t.traverse cfg E (f i)) (t.codec cfg E).skip n 0 w
  | .btreeSet t, .into f n => do
    let w ← SeqWalker.new cfg
    seqLoop (fun i => t.traverse cfg E (f i)) (t.codec cfg E).skip n 0 w
  | .hashSet t, .into f n => do
    let w ← SeqWalker.new cfg
    seqLoop (fun i => t.traverse cfg E (f i)) (t.codec cfg E).skip n 0 w
  | .binaryHeap t, .into f n => do
    let w ← SeqWalker.new cfg
    seqLoop (fun i => t.traverse cfg E (f i)) (t.codec cfg E).skip n 0 w
  | .vector t, .into f n => do
    let w ← SeqWalker.new cfg
    seqLoop (fun i => t.traverse cfg E (f i)) (t.codec cfg E).skip n 0 w
  | .btreeMap k v, .into f n => do
    let w ← MapWalker.new cfg
    mapLoop
      (fun i => match f (2 * i) with
        | .decode => do
          let a ← (k.codec cfg E).dec
          pure [⟨k, a⟩]
        | _ => do
          (k.codec cfg E).skip
          pure [])
      (fun i => v.traverse cfg E (f (2 * i + 1)))
      (k.codec cfg E).skip (v.codec cfg E).skip n 0 w
  | .hashMap k v, .into f n => do
    let w ← MapWalker.new cfg
    mapLoop
      (fun i => match f (2 * i) with
        | .decode => do
          let a ← (k.codec cfg E).dec
          pure [⟨k, a⟩]
        | _ => do
          (k.codec cfg E).skip
          pure [])
      (fun i => v.traverse cfg E (f (2 * i + 1)))
      (k.codec cfg E).skip (v.codec cfg E).skip n 0 w
  | t, .into _ _ => do
    (t.codec cfg E).skip
    pure []

/-- What a plan should see of the value `v`: the parts of `v` it decodes, in order. -/
def Ty.seen (cfg : Cfg) (E : Env ι) : (t : Ty ι) → Plan → t.denote E.X → List (Seen E)
  | t, .decode, v => [⟨t, v⟩]
  | _, .skip, _ => []
  | .wrap t, .into f n, v => t.seen cfg E (.into f n) v
  | .option t, .into f _, v =>
    match v with
    | some a => t.seen cfg E (f 0) a
    | none => []
  | .result t e, .into f _, v =>
    match v with
    | .ok a => t.seen cfg E (f 0) a
    | .error x => e.seen cfg E (f 1) x
  | .vec t, .into f n, l =>
    if vecUsesBulkEncoding cfg t then []
    else (l.take n).zipIdx.flatMap fun p => t.seen cfg E (f p.2) p.1
  | .btreeSet t, .into f n, l => (l.take n).zipIdx.flatMap fun p => t.seen cfg E (f p.2) p.1
  | .hashSet t, .into f n, l => (l.take n).zipIdx.flatMap fun p => t.seen cfg E (f p.2) p.1
  | .binaryHeap t, .into f n, l => (l.take n).zipIdx.flatMap fun p => t.seen cfg E (f p.2) p.1
  | .vector t, .into f n, l => (l.take n).zipIdx.flatMap fun p => t.seen cfg E (f p.2) p.1
  | .btreeMap k v, .into f n, l => (l.take n).zipIdx.flatMap fun p =>
    (match f (2 * p.2) with
      | .decode => [⟨k, p.1.1⟩]
      | _ => []) ++ v.seen cfg E (f (2 * p.2 + 1)) p.1.2
  | .hashMap k v, .into f n, l => (l.take n).zipIdx.flatMap fun p =>
    (match f (2 * p.2) with
      | .decode => [⟨k, p.1.1⟩]
      | _ => []) ++ v.seen cfg E (f (2 * p.2 + 1)) p.1.2
  | _, .into _ _, _ => []

/-- The type inside any number of boxes (`Box`, `Arc`, `Cow`, `Wrapping`, `Reverse`). -/
def Ty.unboxed : Ty ι → Ty ι
  | .wrap t => t.unboxed
  | t => t

/-- `w` is the kind of walker for values of a type: a walker of options for an option, and so on. -/
def Walker.IsFor (w : Walker) : Ty ι → Prop
  | .option _ => ∃ o, w = .option o
  | .result _ _ => ∃ o, w = .result o
  | .vec _ | .hashSet _ | .btreeSet _ | .binaryHeap _ | .vector _ => ∃ o, w = .seq o
  | .hashMap _ _ | .btreeMap _ _ => ∃ o, w = .map o
  | _ => w = .leaf

end Revision
