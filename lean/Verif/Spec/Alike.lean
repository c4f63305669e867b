import Verif.Spec.Ty
import Verif.Model.DeriveTy

/-!
# Types with the same bytes

Which types of a field can be exchanged without a new revision, and what becomes of the values.
-/

namespace Revision

variable {ι : Type}

/-- The element types whose `Vec` has bytes of its own when `specialised-vectors` is on: booleans are packed
into bits, and integers of two bytes and more are written as they lie in memory. -/
def Ty.Packed : Ty ι → Prop
  | .bool => True
  | .int k => 16 ≤ k.bits ∧ k ≠ .usize ∧ k ≠ .isize
  | _ => False

/-- A `Vec<T>` has the bytes of its elements, one after the other. -/
def Ty.Elementwise (cfg : Cfg) (t : Ty ι) : Prop := cfg.specialised = false ∨ ¬ t.Packed

/-- The types that are a length and then the elements, one by one. -/
inductive Listed (cfg : Cfg) (E : Env ι) : (t e : Ty ι) → (t.denote E.X → List (e.denote E.X)) → Prop where
  | vec {e} (h : e.Elementwise cfg) : Listed cfg E (.vec e) e id
  | vector {e} : Listed cfg E (.vector e) e id
  | btreeSet {e} : Listed cfg E (.btreeSet e) e id
  | hashSet {e} : Listed cfg E (.hashSet e) e id
  | binaryHeap {e} : Listed cfg E (.binaryHeap e) e id
  | btreeMap {k v} : Listed cfg E (.btreeMap k v) (.pair k v) id
  | hashMap {k v} : Listed cfg E (.hashMap k v) (.pair k v) id

/-- `Alike cfg E s t f`: where there was an `s` there may be a `t`; the value `v` becomes `f v`. -/
inductive Alike (cfg : Cfg) (E : Env ι) : (s t : Ty ι) → (s.denote E.X → t.denote E.X) → Prop where
  | same (t) : Alike cfg E t t id
  | trans {s t u f g} : Alike cfg E s t f → Alike cfg E t u g → Alike cfg E s u (fun v => g (f v))
  /-- `Box<T>`, `Arc<T>`, `Cow<T>`, `Reverse<T>`, `Wrapping<T>` and `T`. -/
  | box (t) : Alike cfg E t (.wrap t) id
  | unbox (t) : Alike cfg E (.wrap t) t id
  /-- To a wider integer type of the same sign, if numbers are written with varying length.  Not from one byte. -/
  | widen {k k' : IntTy} (hf : cfg.fixedWidth = false) (h8 : 16 ≤ k.bits) (hw : k.bits ≤ k'.bits) (hs : k.signed = k'.signed) :
      Alike cfg E (.int k) (.int k') fun v => BitVec.ofInt k'.bits (k.value v)
  /-- A truth value may become a number. -/
  | flag : Alike cfg E .bool (.int .u8) fun b => if b then 1 else 0
  /-- `String` may become `PathBuf`, and that may become `Bytes`; `Bytes` and `Vec<u8>` are alike. -/
  | text : Alike cfg E .string .path fun s => s.toByteArray.data.toList
  | raw : Alike cfg E .path .bytes id
  | octets : Alike cfg E .bytes (.vec (.int .u8)) fun b => b.map UInt8.toBitVec
  | unoctets : Alike cfg E (.vec (.int .u8)) .bytes fun b => b.map UInt8.ofBitVec
  | notNan (f) : Alike cfg E (.notNan f) (.float f) id
  /-- An optional value may become a list. -/
  | many {t} (hf : cfg.fixedWidth = false) (h : t.Elementwise cfg) : Alike cfg E (.option t) (.vec t) Option.toList
  | option {s t f} : Alike cfg E s t f → Alike cfg E (.option s) (.option t) (Option.map f)
  | result {s t s' t' f f'} : Alike cfg E s t f → Alike cfg E s' t' f' →
      Alike cfg E (.result s s') (.result t t') fun
        | .ok a => .ok (f a)
        | .error e => .error (f' e)
  | bound {s t f} : Alike cfg E s t f → Alike cfg E (.bound s) (.bound t) fun
        | .unbounded => .unbounded
        | .included a => .included (f a)
        | .excluded a => .excluded (f a)
  | pair {s t s' t' f f'} : Alike cfg E s t f → Alike cfg E s' t' f' →
      Alike cfg E (.pair s s') (.pair t t') fun p => (f p.1, f' p.2)
  | array {s t f} (n) : Alike cfg E s t f → Alike cfg E (.array n s) (.array n t) (List.map f)
  | vec {s t f} (hs : s.Elementwise cfg) (ht : t.Elementwise cfg) : Alike cfg E s t f →
      Alike cfg E (.vec s) (.vec t) (List.map f)
  | vector {s t f} : Alike cfg E s t f → Alike cfg E (.vector s) (.vector t) (List.map f)
  /-- The values of a map; the keys stay. -/
  | btreeMap {k s t f} : Alike cfg E s t f → Alike cfg E (.btreeMap k s) (.btreeMap k t) (List.map fun e => (e.1, f e.2))
  | hashMap {k s t f} : Alike cfg E s t f → Alike cfg E (.hashMap k s) (.hashMap k t) (List.map fun e => (e.1, f e.2))
  /-- Any collection may become the list of its elements. -/
  | list {s e g} : Listed cfg E s e g → e.Elementwise cfg → Alike cfg E s (.vec e) g
  | sequence {s e g} : Listed cfg E s e g → Alike cfg E s (.vector e) g
  /-- Ordered collections may become hashed ones, if `==` and the order agree. -/
  | unordered {k v} (he : ∀ a b, E.eq k a b = (E.cmp k a b == .eq)) : Alike cfg E (.btreeMap k v) (.hashMap k v) id
  | unorderedSet {k} (he : ∀ a b, E.eq k a b = (E.cmp k a b == .eq)) : Alike cfg E (.btreeSet k) (.hashSet k) id

/-- The field is written with the impls of its type alone. -/
def FieldOptions.Bare (o : FieldOptions) : Prop :=
  o.fixed = false ∧ o.specialised = false ∧ o.indexedMap = false ∧ o.indexedSeq = false ∧ o.indexedSet = false

/-- A struct with values for the fields it has at `r`, and the same struct after the types of some fields
have been exchanged. -/
inductive Retyped {ι : Type} [DecidableEq ι] (cfg : Cfg) (E : Env ι) (r : Nat) :
    List (FieldDecl (Dyn E)) → List (Dyn E) → List (FieldDecl (Dyn E)) → List (Dyn E) → Prop where
  | nil : Retyped cfg E r [] [] [] []
  /-- A field that stays as it is, whatever its attributes. -/
  | keep {f fs vs fs' vs'} (v : Dyn E) (h : f.existsAt r = true) :
      Retyped cfg E r fs vs fs' vs' → Retyped cfg E r (f :: fs) (v :: vs) (f :: fs') (v :: vs')
  /-- A field of another revision. -/
  | absent {f fs vs fs' vs'} (h : f.existsAt r = false) :
      Retyped cfg E r fs vs fs' vs' → Retyped cfg E r (f :: fs) vs (f :: fs') vs'
  /-- A field of type `s` that gets the type `t`. -/
  | move {name opts s t f fs vs fs' vs'} (dflt dflt' convert convert') (h : existsAt opts.start opts.stop r = true)
      (hb : opts.Bare) (ha : Alike cfg E s t f) (a : s.denote E.X) (hw : s.WF E a) :
      Retyped cfg E r fs vs fs' vs' →
        Retyped cfg E r (tyField cfg E name opts s dflt convert :: fs) (⟨s, a⟩ :: vs)
          (tyField cfg E name opts t dflt' convert' :: fs') (⟨t, f a⟩ :: vs')

end Revision
