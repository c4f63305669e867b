import Verif.Proofs.Ty

/-! Helper lemmas: a stricter allocator only turns results into panics. -/

namespace Revision

/-- `m` panics or does what `n` does. -/
def Rd.Below (m n : Rd α) : Prop := ∀ s, m s = .panic ∨ m s = n s

namespace Rd.Below

theorem refl (m : Rd α) : Below m m := fun _ => Or.inr rfl

theorem bind {m n : Rd α} {f g : α → Rd β} (h : Below m n) (hf : ∀ a, Below (f a) (g a)) :
    Below (m >>= f) (n >>= g) := by
  intro s
  rcases h s with h | h
  · exact Or.inl (Rd.bind_of_panic h)
  · simp only [Rd.bind_run, ← h]
    cases hm : m s with
    | ok p => obtain ⟨a, r⟩ := p; exact hf a r
    | err e => exact Or.inr rfl
    | panic => exact Or.inl rfl

theorem alloc (b : Bool) : Below (Rd.alloc b) (Rd.alloc true) := by
  cases b
  · exact fun _ => Or.inl rfl
  · exact refl _

theorem readN {m n : Rd α} (h : Below m n) (k : Nat) : Below (Rd.readN k m) (Rd.readN k n) := by
  induction k with
  | zero => exact refl _
  | succ k ih => exact bind h fun _ => bind ih fun _ => refl _

theorem ite {c : Prop} [Decidable c] {m n m' n' : Rd α} (h : Below m m') (h' : Below n n') :
    Below (if c then m else n) (if c then m' else n') := by
  split <;> assumption

theorem mapErr {m n : Rd α} {f} (h : Below m n) : Below (m.mapErr f) (n.mapErr f) := by
  intro s
  simp only [Rd.mapErr]
  rcases h s with h | h
  · left; rw [h]; rfl
  · right; rw [h]

end Rd.Below

open Rd.Below

theorem vecC_below {cfg : Cfg} {cap} {c c' : Codec α} (h : c.dec.Below c'.dec) :
    (vecC cfg cap c).dec.Below (vecC cfg (fun _ => true) c').dec :=
  bind (refl _) fun n => ite (refl _) (bind (alloc _) fun _ => readN h n)

theorem bulkC_below {cfg : Cfg} {cap W w} :
    (bulkC cfg cap W w).dec.Below (bulkC cfg (fun _ => true) W w).dec :=
  bind (refl _) fun _ => ite (refl _) (ite (bind (alloc _) fun _ => refl _) (refl _))

theorem boolsC_below {cfg : Cfg} {cap} :
    (boolsC cfg cap).dec.Below (boolsC cfg (fun _ => true)).dec :=
  bind (refl _) fun _ => ite (refl _) (bind (alloc _) fun _ => bind (refl _) fun _ =>
    bind (alloc _) fun _ => refl _)

theorem readBytes_below {cfg : Cfg} {cap} :
    (readBytes cfg cap).Below (readBytes cfg (fun _ => true)) :=
  bind (refl _) fun _ => ite (refl _) (bind (alloc _) fun _ => refl _)

theorem collC_below {cfg : Cfg} {cap} {c c' : Codec α} {inv build} (h : c.dec.Below c'.dec) :
    (collC cfg cap c inv build).dec.Below (collC cfg (fun _ => true) c' inv build).dec :=
  bind (refl _) fun n => bind (alloc _) fun _ => bind (readN h n) fun _ => refl _

theorem pairC_below {a a' : Codec α} {b b' : Codec β} (h1 : a.dec.Below a'.dec)
    (h2 : b.dec.Below b'.dec) : (pairC a b).dec.Below (pairC a' b').dec :=
  bind h1 fun _ => bind h2 fun _ => refl _

theorem vecOf_below {cfg : Cfg} {E : Env ι} (t : Ty ι) {c c'} (h : c.dec.Below c'.dec) :
    (vecOf cfg E t c).dec.Below (vecOf cfg E.unlimited t c').dec := by
  cases t <;> simp only [vecOf] <;> try exact vecC_below h
  case bool => split
               · exact boolsC_below
               · exact vecC_below h
  case int k => split
                · exact bulkC_below
                · exact vecC_below h
  case float f => split
                  · exact bulkC_below
                  · exact vecC_below h
  case uuid => split
               · exact bulkC_below
               · exact vecC_below h

theorem Ty.codec_below (cfg : Cfg) (E : Env ι) (t : Ty ι) :
    (t.codec cfg E).dec.Below (t.codec cfg E.unlimited).dec := by
  induction t with
  | unit | bool | int | float | char | uuid | duration | systemTime | notNan | ext => exact refl _
  | string => exact bind readBytes_below fun _ => refl _
  | path => exact bind (bind readBytes_below fun _ => refl _) fun _ => refl _
  | bytes => exact readBytes_below
  | option t ih => exact bind (refl _) fun _ => ite (refl _) (ite (bind ih fun _ => refl _) (refl _))
  | result t e iht ihe =>
    exact bind (refl _) fun _ => ite (bind iht.mapErr fun _ => refl _)
      (ite (bind ihe.mapErr fun _ => refl _) (refl _))
  | bound t ih =>
    exact bind (refl _) fun _ => ite (refl _) (ite (bind ih.mapErr fun _ => refl _)
      (ite (bind ih.mapErr fun _ => refl _) (refl _)))
  | wrap t ih => exact ih
  | pair s t ihs iht => exact pairC_below ihs iht
  | array n t ih => exact readN ih n
  | vec t ih => exact vecOf_below t ih
  | btreeMap k v ihk ihv => exact collC_below (pairC_below ihk ihv)
  | btreeSet k ih => exact collC_below ih
  | hashMap k v ihk ihv => exact collC_below (pairC_below ihk ihv)
  | hashSet k ih => exact collC_below ih
  | binaryHeap t ih => exact collC_below ih
  | vector t ih => exact collC_below ih

end Revision
