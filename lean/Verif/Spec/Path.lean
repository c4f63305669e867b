import Verif.Model.DeriveTy
import Verif.Model.DeriveWalk
import Verif.Model.Program
import Verif.Model.Walk
import Verif.Spec.DeriveWalk
import Verif.Spec.Program

/-!
# Paths into values

`Program.focus` says which part of a value a path leads to.  `Program.walkPath` is a user program that
follows the path in the serialised value with the walkers, skipping what is beside the path, and
decodes only the part at its end.
-/

namespace Revision

/-- A step from a value to a part of it: into an option or result, to an element, to the value of an
entry by its position or by the serialised form of its key, to a field, to the field of a variant. -/
inductive Step where
  | some
  | ok
  | err
  | elem (k : Nat)
  | value (k : Nat)
  | key (bytes : Bytes)
  | field (name : String)
  | variant (ident : String)
  deriving DecidableEq

variable {ι : Type}

/-! ### The part of a value at the end of a path -/

/-- A step into a value of type `t`, then `inner`; `enc` serialises keys, `ext` steps into values of derived
types. -/
def Ty.stepInto {X : ι → Type} {β : Type} (enc : (t : Ty ι) → t.denote X → Res Bytes) (inner : (t : Ty ι) → t.denote X → Option β)
    (ext : (i : ι) → X i → Option β) (s : Step) : (t : Ty ι) → t.denote X → Option β
  | .option t, v => match s, v with
    | .some, .some a => inner t a
    | _, _ => none
  | .result t e, v => match s, v with
    | .ok, .ok a => inner t a
    | .err, .error a => inner e a
    | _, _ => none
  | .vec t, (l : List _) | .vector t, (l : List _) | .btreeSet t, (l : List _) | .hashSet t, (l : List _)
  | .binaryHeap t, (l : List _) => match s with
    | .elem k => l[k]?.bind (inner t)
    | _ => none
  | .btreeMap k v, (l : List _) | .hashMap k v, (l : List _) => match s with
    | .value j => l[j]?.bind fun e => inner v e.2
    | .key kb => (l.find? fun e => enc k e.1 = .ok kb).bind fun e => inner v e.2
    | _ => none
  | .wrap t, v => t.stepInto enc inner ext s v
  | .ext i, x => ext i x
  | _, _ => none

/-- A step into a value of a derived type: to a field of the revision `cur`, or to the only field of a
variant. -/
def Body.stepInto {K : ι → Kind} {n : Nat} {β : Type} (inner : DynAt K n → Option β) (cur : Nat) (s : Step) :
    {k : Kind} → Body K k → k.values (DynAt K n) → Option β
  | _, .struct fs, this => match s with
    | .field name =>
      ((fs.filter (·.existsAt cur)).findIdx? (·.name == name)).bind fun j =>
        (show List (DynAt K n) from this)[j]?.bind inner
    | _ => none
  | _, .enum _, x => match s with
    | .variant ident => if x.variant = ident then
        match x.fields with
        | [y] => inner y
        | _ => none
      else none
    | _ => none
  | _, .foreign _, _ => none

/-- What is at the end of a path: a value, its type and a bound on how deep derived types nest in it. -/
abbrev Found (K : ι → Kind) := (n : Nat) × DynAt K n

variable [DecidableEq ι]

/-- How values of type `t` are serialised. -/
def Program.encode (cfg : Cfg) (P : Program ι) (I : Impls P.kind) (n : Nat) (t : Ty ι)
    (v : t.denote (Values P.kind n)) : Res Bytes :=
  (t.codec cfg (I.env n (P.codec cfg I n))).enc v

/-- The part of the value `v` at the end of a path. -/
def Program.focus (cfg : Cfg) (P : Program ι) (I : Impls P.kind) : List Step → (n : Nat) → (t : Ty ι) → t.denote (Values P.kind n) →
    Option (Found P.kind)
  | [], n, t, v => some ⟨n, t, v⟩
  | s :: p, n, t, v => t.stepInto (P.encode cfg I n) (P.focus cfg I p n)
    (match n with
      | 0 => fun _ x => nomatch x
      | n + 1 => fun i x =>
        Body.stepInto (fun y => P.focus cfg I p n y.1 y.2) (P.history i).length s (P.body i) x) s v

/-! ### Following a path with the walkers -/

/-- What is done with a part that has been reached: decode it, or walk on. -/
inductive Get (α β : Type) where
  | decode (out : α → β)
  | walk (m : Rd (Option β))

/-- Read a part by itself. -/
def Get.read {α β : Type} (c : Codec α) : Get α β → Rd (Option β)
  | .decode out => do
    let a ← c.dec
    pure (some (out a))
  | .walk m => m

/-- Go to item `k` of a sequence. -/
def seqAt {β : Type} (skip : Rd Unit) (item : Rd (Option β)) : Nat → SeqWalker → Rd (Option β)
  | 0, w => do
    let (x, _) ← w.item item
    pure x.join
  | k + 1, w => do
    let (x, w) ← w.item skip
    match x with
    | none => pure none
    | some _ => seqAt skip item k w

/-- Go to the value of entry `k` of a map. -/
def mapAt {κ α β : Type} (kc : Codec κ) (vc : Codec α) (value : Rd (Option β)) : Nat → MapWalker → Rd (Option β)
  | k, w => match w.nextEntry with
    | none => pure none
    | some e => match k with
      | 0 => do
        let (_, e) ← e.key kc.skip
        let (x, _) ← e.value value
        pure x
      | k + 1 => do
        let w ← e.skipPair kc vc
        mapAt kc vc value k w

/-- Go to the value under the key that is serialised as `bytes`. -/
def mapKey {κ α β : Type} (kc : Codec κ) (vc : Codec α) (value : Rd (Option β)) (bytes : Bytes) :
    Nat → MapWalker → Rd (Option β)
  | 0, _ => pure none
  | n + 1, w => match w.nextEntry with
    | none => pure none
    | some e => do
      let (k, e) ← e.key kc.dec
      if kc.enc k = .ok bytes then do
        let (x, _) ← e.value value
        pure x
      else do
        let (_, w) ← e.value vc.skip
        mapKey kc vc value bytes n w

/-- A step into a serialised value of type `t`: ask the type for its walker and go on from there. -/
def Ty.walkStep {β : Type} (cfg : Cfg) (E : Env ι) (get : (t : Ty ι) → Get (t.denote E.X) β)
    (ext : ι → Rd (Option β)) (s : Step) : Ty ι → Rd (Option β)
  | .option t => match s with
    | .some => do
      let w ← (Ty.option t).walk cfg
      match w with
      | .option w => match get t with
        | .decode out => do
          let a ← w.decode (t.codec cfg E)
          pure (a.map out)
        | .walk m => if w.isSome then w.intoSome m else pure none
      | _ => pure none
    | _ => pure none
  | .result t e => match s with
    | .ok => do
      let w ← (Ty.result t e).walk cfg
      match w with
      | .result w => if w.isOk then w.intoOk ((get t).read (t.codec cfg E)) else pure none
      | _ => pure none
    | .err => do
      let w ← (Ty.result t e).walk cfg
      match w with
      | .result w => if w.isErr then w.intoErr ((get e).read (e.codec cfg E)) else pure none
      | _ => pure none
    | _ => pure none
  | .vec t => seqStep (.vec t) t
  | .vector t => seqStep (.vector t) t
  | .btreeSet t => seqStep (.btreeSet t) t
  | .hashSet t => seqStep (.hashSet t) t
  | .binaryHeap t => seqStep (.binaryHeap t) t
  | .btreeMap k v => mapStep (.btreeMap k v) k v
  | .hashMap k v => mapStep (.hashMap k v) k v
  | .wrap t => t.walkStep cfg E get ext s
  | .ext i => ext i
  | _ => pure none
where
  seqStep (coll t : Ty ι) : Rd (Option β) := match s with
    | .elem k => do
      let w ← coll.walk cfg
      match w with
      | .seq w => seqAt (t.codec cfg E).skip ((get t).read (t.codec cfg E)) k w
      | _ => pure none
    | _ => pure none
  mapStep (coll k v : Ty ι) : Rd (Option β) := match s with
    | .value j => do
      let w ← coll.walk cfg
      match w with
      | .map w => mapAt (k.codec cfg E) (v.codec cfg E) ((get v).read (v.codec cfg E)) j w
      | _ => pure none
    | .key kb => do
      let w ← coll.walk cfg
      match w with
      | .map w => mapKey (k.codec cfg E) (v.codec cfg E) ((get v).read (v.codec cfg E)) kb w.remaining w
      | _ => pure none
    | _ => pure none

/-- Skip `i` elements and read the next. -/
def scanItem {β : Type} (skip : Rd Unit) (item : Rd (Option β)) : Nat → Rd (Option β)
  | 0 => item
  | i + 1 => do
    skip
    scanItem skip item i

/-- Element `i` in the view of an `indexed_seq` field. -/
def seqFind {α β : Type} (c : Codec α) (item : Rd (Option β)) (i : Nat) (view : Bytes) : Res (Option β) := do
  let w ← IndexedSeqWalker.fromPayload view
  if i < w.len then
    if w.isIndexed then do
      let b ← w.elementBytes i
      item.within b
    else (scanItem c.skip item i).within w.body
  else pure none

/-- Go through `n` entries to the one with the key that is serialised as `bytes`. -/
def scanKey {κ α β : Type} (kc : Codec κ) (vc : Codec α) (value : Rd (Option β)) (bytes : Bytes) : Nat → Rd (Option β)
  | 0 => pure none
  | n + 1 => do
    let k ← kc.dec
    if kc.enc k = .ok bytes then value
    else do
      vc.skip
      scanKey kc vc value bytes n

/-- The value under a key in the view of an `indexed_map` field. -/
def mapFind {κ α β : Type} (kc : Codec κ) (vc : Codec α) (value : Rd (Option β)) (bytes : Bytes) (view : Bytes) :
    Res (Option β) := do
  let w ← IndexedMapWalker.fromPayload view
  match w.legacyBody with
  | some body => (scanKey kc vc value bytes w.len).within body
  | none => do
    match ← w.findValueBytes (fun x => cmpBytes x bytes) with
    | some vb => value.within vb
    | none => pure none

/-- A step into the view of an `indexed_*` field of type `t`. -/
def Ty.viewStep {β : Type} (cfg : Cfg) (E : Env ι) (get : (t : Ty ι) → Get (t.denote E.X) β) (s : Step) (view : Bytes) :
    Ty ι → Res (Option β)
  | .vec t | .vector t => match s with
    | .elem k => seqFind (t.codec cfg E) ((get t).read (t.codec cfg E)) k view
    | _ => pure none
  | .btreeMap k v | .hashMap k v => match s with
    | .key kb => mapFind (k.codec cfg E) (v.codec cfg E) ((get v).read (v.codec cfg E)) kb view
    | _ => pure none
  | _ => pure none

/-- Go to field `idx` of a serialised struct: skip the fields before it, then `decode_<field>` or
`walk_<field>`; in an `indexed_struct`, where fields are not walked, `into_<field>_bytes`. -/
def fieldAt {V β : Type} (alive : List (FieldDecl V)) (idx : Nat) (f : FieldDecl V) (get : Get V β) (w : StructRepr) :
    Rd (Option β) :=
  match get with
  | .decode out => do
    let (_, w) ← passFields 0 alive (List.replicate idx false) w
    let (v, _) ← w.decodeField idx f
    pure (some (out v))
  | .walk m => match w with
    | .indexed .. => do
      let bytes ← w.intoFieldBytes idx f
      Rd.lift (m.within bytes)
    | _ => do
      let (_, w) ← passFields 0 alive (List.replicate idx false) w
      w.walkField m f

/-- Go to the view of the `indexed_*` field `idx` of a serialised struct. -/
def viewAt {V β : Type} (alive : List (FieldDecl V)) (idx : Nat) (f : FieldDecl V) (inner : Bytes → Res (Option β))
    (w : StructRepr) : Rd (Option β) := do
  let (_, w) ← passFields 0 alive (List.replicate idx false) w
  let view ← w.viewField idx f
  Rd.lift (inner view)

/-- Go to the only field of the variant `v` of a serialised enum: `decode_<variant>`, or
`into_<variant>`, or, in an optimised enum, `<variant>_view`. -/
def variantAt {V β : Type} (vs : List (VariantDecl V)) (latest : Nat) (v : VariantDecl V) (f : FieldDecl V)
    (get : Get V β) (w : EnumRepr) : Rd (Option β) :=
  if w.isVariant vs latest v then
    match get with
    | .decode out => do
      let x ← w.decodeVariant vs latest v f
      pure (some (out x))
    | .walk m => match w with
      | .borrowed .. => do
        let bytes ← w.viewSingle vs latest v f
        Rd.lift (m.within bytes)
      | _ => w.intoVariant vs latest v m
  else pure none

/-- A step into a serialised value of a derived type; into the view of an `indexed_*` field with `view`,
unless the path ends there. -/
def Body.walkStep {K : ι → Kind} {n : Nat} {β : Type} (cfg : Cfg) (I : Impls K)
    (c : (i : ι) → Codec (Values K n i)) (h : List Entry) (last : Bool) (get : Ty ι → Get (DynAt K n) β)
    (view : Ty ι → Bytes → Res (Option β)) (s : Step) :
    {k : Kind} → Body K k → Rd (Option β)
  | _, .struct fs => match s with
    | .field name =>
      let live := fs.filter (·.existsAt h.length)
      match live.findIdx? (·.name == name) with
      | some j => match live[j]? with
        | some f => do
          let w ← walkStruct cfg h (fs.map (·.decl cfg I n c))
          if f.isIndexed && !last then viewAt (live.map (·.decl cfg I n c)) j (f.decl cfg I n c) (view f.ty) w
          else fieldAt (live.map (·.decl cfg I n c)) j (f.decl cfg I n c) (get f.ty) w
        | none => pure none
      | none => pure none
    | _ => pure none
  | _, .enum vs => match s with
    | .variant ident =>
      match (vs.filter (·.existsAt h.length)).find? (·.ident == ident) with
      | some v => match v.fields.filter (·.existsAt h.length) with
        | [f] => do
          let w ← walkEnum cfg h (vs.map (·.decl cfg I n c))
          variantAt (vs.map (·.decl cfg I n c)) h.length (v.decl cfg I n c) (f.decl cfg I n c) (get f.ty) w
        | _ => pure none
      | none => pure none
    | _ => pure none
  | _, .foreign _ => pure none

mutual

/-- Follow a path in a serialised value of type `t` and decode what is at its end; `none` if the value
has no such part. -/
def Program.walkPath (cfg : Cfg) (P : Program ι) (I : Impls P.kind) :
    List Step → (n : Nat) → Ty ι → Rd (Option (Found P.kind))
  | [], n, t => do
    let v ← (t.codec cfg (I.env n (P.codec cfg I n))).dec
    pure (some ⟨n, t, v⟩)
  | s :: p, n, t =>
    t.walkStep cfg (I.env n (P.codec cfg I n))
      (fun t => if p = [] then .decode fun v => ⟨n, t, v⟩ else .walk (P.walkPath cfg I p n t))
      (match n with
        | 0 => fun _ => Rd.fail .deserialize
        | n + 1 => fun i => Body.walkStep cfg I (P.codec cfg I n) (P.history i) p.isEmpty
          (fun t => if p = [] then .decode fun v => ⟨n, v⟩ else .walk (P.walkPath cfg I p n t))
          (P.viewPath cfg I p n) s (P.body i))
      s

/-- The same in the view of an `indexed_*` field. -/
def Program.viewPath (cfg : Cfg) (P : Program ι) (I : Impls P.kind) :
    List Step → (n : Nat) → Ty ι → Bytes → Res (Option (Found P.kind))
  | [], _, _, _ => .err .deserialize
  | s :: p, n, t, view => t.viewStep cfg (I.env n (P.codec cfg I n))
      (fun t => if p = [] then .decode fun v => ⟨n, t, v⟩ else .walk (P.walkPath cfg I p n t)) s view

end

/-! ### Paths the walkers can follow -/

/-- Bulk-encoded vectors have no walker (`C29`). -/
def Ty.openStep (cfg : Cfg) (inner : Ty ι → Prop) (ext : ι → Prop) (s : Step) : Ty ι → Prop
  | .option t => s = .some → inner t
  | .result t e => (s = .ok → inner t) ∧ (s = .err → inner e)
  | .vec t => ∀ k, s = .elem k → vecUsesBulkEncoding cfg t = false ∧ inner t
  | .vector t | .btreeSet t | .hashSet t | .binaryHeap t => ∀ k, s = .elem k → inner t
  | .btreeMap _ v | .hashMap _ v => (∀ k, s = .value k → inner v) ∧ ∀ b, s = .key b → inner v
  | .wrap t => t.openStep cfg inner ext s
  | .ext i => ext i
  | _ => True

/-- The walkers do not know the encodings `fixed` and `specialised` choose at a legacy revision, nor
that `indexed_*` fields are written plain there (`C57_fixed_false`, `C57_legacy_indexed_false`, `C70_fixed_false`); in an
`indexed_struct` they do not decode `indexed_*` fields (`C57_indexed_field_false`), and the way on from an
`indexed_*` field is its view. -/
def Body.openStep {K : ι → Kind} (e : Entry) (last : Bool) (inner view : Ty ι → Prop) (s : Step) :
    {k : Kind} → Body K k → Prop
  | _, .struct fs => ∀ name, s = .field name →
    (e.optimised = false → ∀ f ∈ fs, f.existsAt e.revision = true →
      f.opts.fixed = false ∧ f.opts.specialised = false ∧ f.isIndexed = false) ∧
    ∀ f ∈ fs, f.existsAt e.revision = true → f.name = name →
      if f.isIndexed = true then if last = true then e.indexedStruct = false else view f.ty else inner f.ty
  | _, .enum vs => ∀ ident, s = .variant ident → ∀ v ∈ vs, v.existsAt e.revision = true → v.ident = ident →
    ∀ f ∈ v.fields, f.existsAt e.revision = true → inner f.ty ∧
      (e.optimised = false → f.opts.fixed = false ∧ f.opts.specialised = false)
  | _, .foreign _ => True

/-- Every value of type `t` takes at least one byte (`C96_weightless_false`). -/
def Program.Weighs (cfg : Cfg) (P : Program ι) (I : Impls P.kind) (t : Ty ι) : Prop :=
  ∀ n v, P.encode cfg I n t v ≠ .ok []

/-- Views give elements by position and values by key; sets, and maps by position, are in another order in
the view than in the value. -/
def Ty.openView (weighs inner : Ty ι → Prop) (s : Step) : Ty ι → Prop
  | .vec t | .vector t => ∀ k, s = .elem k → weighs t ∧ inner t
  | .btreeMap k v | .hashMap k v => (∀ b, s = .key b → weighs k ∧ weighs v ∧ inner v) ∧ ∀ j, s ≠ .value j
  | .btreeSet _ | .hashSet _ => ∀ k, s ≠ .elem k
  | _ => False

mutual

/-- The walkers can follow the path from a value of type `t`. -/
def Program.Open (cfg : Cfg) (P : Program ι) (I : Impls P.kind) : List Step → Ty ι → Prop
  | [], _ => True
  | s :: p, t => t.openStep cfg (P.Open cfg I p)
    (fun i => Body.openStep (lastEntry (P.history i)) p.isEmpty (P.Open cfg I p) (P.OpenView cfg I p) s (P.body i)) s

/-- The same from a view of a field of type `t`. -/
def Program.OpenView (cfg : Cfg) (P : Program ι) (I : Impls P.kind) : List Step → Ty ι → Prop
  | [], _ => True
  | s :: p, t => t.openView (P.Weighs cfg I) (P.Open cfg I p) s

end

end Revision
