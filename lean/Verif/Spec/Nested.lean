import Verif.Model.DeriveTy
import Verif.Spec.Derive

/-!
# Reading another program's data

Vocabulary for data written by one version of a program and read by another when the types nest:
what the reader gets for a value of the writer.
-/

namespace Revision

/-- The value of a normal return; neither an error nor a panic gives one. -/
def Res.ok? : Res α → Option α
  | .ok a => some a
  | _ => none

/-- Whatever follows them, the bytes `o` writes for a value `v` are read by `n` as `mig v`; if
`mig v` is not defined, `n` refuses them.  Skipping them succeeds, unless it `may` fail, and checking them succeeds if `mig v` is
defined, both leaving what follows. -/
structure Codec.Reads {α β : Type} (o : Codec α) (may : Bool) (n : Codec β) (mig : α → Option β) : Prop where
  dec : ∀ v b, o.valid v → o.enc v = .ok b → ∀ t, (n.dec (b ++ t)).ok? = (mig v).map (·, t)
  skip : ∀ v b, o.valid v → o.enc v = .ok b → ∀ t, Lands may (n.skip (b ++ t)) t
  skipS : ∀ v b, o.valid v → o.enc v = .ok b → ∀ t, Lands may (n.skipS (b ++ t)) t
  check : ∀ v b, o.valid v → o.enc v = .ok b → ∀ t, (n.check (b ++ t)).ok? = (mig v).map (fun _ => ((), t))

/-- Migrate every element, in order; not defined if it is not for one of them. -/
def migrateAll (g : α → Option β) : List α → Option (List β)
  | [] => some []
  | a :: l => do
    let b ← g a
    let m ← migrateAll g l
    pure (b :: m)

/-- Migrate both components. -/
def migratePair (f : α → Option γ) (g : β → Option δ) (p : α × β) : Option (γ × δ) := do
  let a ← f p.1
  let b ← g p.2
  pure (a, b)

/-- Migrate the value of an option. -/
def migrateOption (g : α → Option β) : Option α → Option (Option β)
  | none => some none
  | some a => (g a).map some

/-- Migrate the value or the error of a result. -/
def migrateResult (f : α → Option γ) (g : β → Option δ) : Except β α → Option (Except δ γ)
  | .ok a => (f a).map .ok
  | .error x => (g x).map .error

/-- Migrate the value of a bound. -/
def migrateBound (g : α → Option β) : Bnd α → Option (Bnd β)
  | .unbounded => some .unbounded
  | .included a => (g a).map .included
  | .excluded a => (g a).map .excluded

/-- A value of a supported type whose derived types migrate by `g`: the same shape with every
derived value inside migrated.  Ordered and hashed collections are rebuilt from their migrated
elements, in the order in which they were written, by the `Ord` and `Eq` impls of the reader. -/
def Ty.migrate (E E' : Env ι) (g : (i : ι) → E.X i → Option (E'.X i)) :
    (t : Ty ι) → t.denote E.X → Option (t.denote E'.X)
  | .unit, v | .bool, v | .int _, v | .float _, v | .char, v | .string, v | .path, v | .bytes, v
  | .uuid, v | .duration, v | .systemTime, v | .notNan _, v => some v
  | .option t, v => migrateOption (t.migrate E E' g) v
  | .result t e, v => migrateResult (t.migrate E E' g) (e.migrate E E' g) v
  | .bound t, v => migrateBound (t.migrate E E' g) v
  | .wrap t, v => t.migrate E E' g v
  | .pair s t, v => migratePair (s.migrate E E' g) (t.migrate E E' g) v
  | .array _ t, l => migrateAll (t.migrate E E' g) l
  | .vec t, l => migrateAll (t.migrate E E' g) l
  | .btreeMap k v, l =>
    (migrateAll (migratePair (k.migrate E E' g) (v.migrate E E' g)) l).map (btreeBuild (E'.cmp k) Prod.fst)
  | .btreeSet k, l => (migrateAll (k.migrate E E' g) l).map (btreeBuild (E'.cmp k) id)
  | .hashMap k v, l =>
    (migrateAll (migratePair (k.migrate E E' g) (v.migrate E E' g)) l).map
      (·.foldl (hashInsert (E'.eq k)) [])
  | .hashSet k, l => (migrateAll (k.migrate E E' g) l).map (·.foldl (hashSetInsert (E'.eq k)) [])
  | .binaryHeap t, l => (migrateAll (t.migrate E E' g) l).map (·.foldl (heapPush (E'.cmp t)) [])
  | .vector t, l => migrateAll (t.migrate E E' g) l
  | .ext i, v => g i v

/-- The bytes of a value, empty if it cannot be serialised. -/
def Codec.bytes (c : Codec α) (a : α) : Bytes := (c.enc a).ok?.getD []

/-- Entries in the order of the bytes of their keys. -/
def byBytes (c : Codec κ) (key : α → κ) (l : List α) : List α :=
  l.mergeSort fun a b => (cmpBytes (c.bytes (key a)) (c.bytes (key b))).isLE

/-- The same for a field with an indexed encoding: maps and sets are rebuilt in the order of the
bytes of their keys. -/
def Ty.migrateIndexed (cfg : Cfg) (E E' : Env ι) (g : (i : ι) → E.X i → Option (E'.X i)) :
    (t : Ty ι) → t.denote E.X → Option (t.denote E'.X)
  | .btreeMap k v, l =>
    (migrateAll (migratePair (k.migrate E E' g) (v.migrate E E' g)) (byBytes (k.codec cfg E) Prod.fst l)).map
      (·.foldl (btreeInsert (E'.cmp k)) [])
  | .hashMap k v, l =>
    (migrateAll (migratePair (k.migrate E E' g) (v.migrate E E' g)) (byBytes (k.codec cfg E) Prod.fst l)).map
      (·.foldl (hashInsert (E'.eq k)) [])
  | .btreeSet k, l =>
    (migrateAll (k.migrate E E' g) (byBytes (k.codec cfg E) id l)).map (btreeBuild (E'.cmp k) id)
  | .hashSet k, l =>
    (migrateAll (k.migrate E E' g) (byBytes (k.codec cfg E) id l)).map (·.foldl (hashSetInsert (E'.eq k)) [])
  | .vec t, l | .vector t, l => migrateAll (t.migrate E E' g) l
  | t, v => t.migrate E E' g v

/-- Migrate the value of each live field; not defined if it is not for one of them, or if there are
not as many values as live fields. -/
def migrateLive (alive : F → Bool) (mig : F → V → Option W) : List F → List V → Option (List W)
  | [], vs => if vs.isEmpty then some [] else none
  | f :: fs, vs =>
    if alive f then
      match vs with
      | [] => none
      | v :: vs => do
        let w ← mig f v
        let ws ← migrateLive alive mig fs vs
        pure (w :: ws)
    else migrateLive alive mig fs vs

end Revision
