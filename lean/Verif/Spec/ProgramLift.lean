import Verif.Spec.Program

/-!
# The same value at another depth

`Values K n i` are the values nesting at most `n` deep.  A value nesting at most `n` deep also nests at
most `m` deep for every `m ≥ n`; `Values.lift` is that same value among the values of depth `m`.
-/

namespace Revision

/-- Replace every value of a further type in a value of a supported type; everything else stays. -/
def Ty.map {ι : Type} {X Y : ι → Type} (f : (i : ι) → X i → Y i) : (t : Ty ι) → t.denote X → t.denote Y
  | .unit, v | .bool, v | .int _, v | .float _, v | .char, v | .string, v | .path, v | .bytes, v
  | .uuid, v | .duration, v | .systemTime, v | .notNan _, v => v
  | .option t, v => Option.map (t.map f) v
  | .result t e, v => match v with
    | .ok a => .ok (t.map f a)
    | .error a => .error (e.map f a)
  | .bound t, v => match v with
    | .unbounded => .unbounded
    | .included a => .included (t.map f a)
    | .excluded a => .excluded (t.map f a)
  | .wrap t, v => t.map f v
  | .pair s t, v => (s.map f v.1, t.map f v.2)
  | .array _ t, l | .vec t, l | .btreeSet t, l | .hashSet t, l | .binaryHeap t, l | .vector t, l =>
    List.map (t.map f) l
  | .btreeMap k v, l | .hashMap k v, l => List.map (fun p => (k.map f p.1, v.map f p.2)) l
  | .ext i, v => f i v

/-- Replace the value of every field. -/
def Kind.map {V W : Type} (g : V → W) : (k : Kind) → k.values V → k.values W
  | .struct, this => List.map g this
  | .enum, x => ⟨x.variant, x.fields.map g⟩
  | .foreign _, x => x

section
variable {ι : Type} (K : ι → Kind)

/-- A value of depth `n` as a value of depth `m`. -/
def Values.lift : (n m : Nat) → n ≤ m → (i : ι) → Values K n i → Values K m i
  | 0, _, _, _, v => nomatch v
  | _ + 1, 0, h, _, _ => absurd h (Nat.not_succ_le_zero _)
  | n + 1, m + 1, h, i, v =>
    (K i).map (fun d : DynAt K n => (⟨d.1, d.1.map (Values.lift n m (Nat.le_of_succ_le_succ h)) d.2⟩ : DynAt K m)) v

variable {K}

/-- `Ord` and `Eq` of the program compare values, not the depth at which the model looks at them. -/
structure Impls.DepthFree (I : Impls K) : Prop where
  cmp : ∀ n m (h : n ≤ m) (t : Ty ι) a b,
    I.cmp m t (t.map (Values.lift K n m h) a) (t.map (Values.lift K n m h) b) = I.cmp n t a b
  eq : ∀ n m (h : n ≤ m) (t : Ty ι) a b,
    I.eq m t (t.map (Values.lift K n m h) a) (t.map (Values.lift K n m h) b) = I.eq n t a b

end

end Revision
