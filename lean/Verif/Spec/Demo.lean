import Verif.Spec.Ty
import Verif.Proofs.BytesOrd

/-! A concrete environment, used to show that the theorems' hypotheses can be met. -/

namespace Revision

/-- The default feature set. -/
abbrev Cfg.default : Cfg := ⟨false, true⟩

/-- Total orders: numbers by value, strings and bytes bytewise, everything else equal. -/
def demoCmp : (t : Ty Empty) → t.denote (fun e => nomatch e) → t.denote (fun e => nomatch e) → Ordering
  | .int k, a, b => compareOn (IntTy.value k) a b
  | .string, a, b => cmpBytes (a.toByteArray.data.toList) (b.toByteArray.data.toList)
  | _, _, _ => .eq

/-- Equality used by the hash maps of the demonstration. -/
def demoEq : (t : Ty Empty) → t.denote (fun e => nomatch e) → t.denote (fun e => nomatch e) → Bool
  | .int _, a, b => a == b
  | .string, a, b => a == b
  | _, _, _ => true

/-- No further types; the allocator grants up to 2^40 elements. -/
def demoEnv : Env Empty where
  X := fun e => nomatch e
  extC := fun e => nomatch e
  cap := fun _ n => decide (n ≤ 2 ^ 40)
  cmp := demoCmp
  eq := demoEq

instance constEq_trans {α : Type} : Std.TransCmp (fun (_ _ : α) => Ordering.eq) where
  eq_swap := rfl
  isLE_trans := fun _ _ => rfl

theorem comap_trans {α β : Type} (f : α → β) (cmp : β → β → Ordering) [Std.TransCmp cmp] :
    Std.TransCmp (fun a b => cmp (f a) (f b)) where
  eq_swap := Std.OrientedCmp.eq_swap (cmp := cmp)
  isLE_trans := Std.TransCmp.isLE_trans (cmp := cmp)

theorem demoEnv_lawful : demoEnv.Lawful where
  ext := fun e => nomatch e
  cap_mono := by
    intro t m n h hn
    simp [demoEnv] at hn ⊢
    omega
  trans := by
    intro t
    cases t
    case int k => exact comap_trans (IntTy.value k) compare
    case string => exact comap_trans (fun s : String => s.toByteArray.data.toList) cmpBytes
    all_goals exact constEq_trans

theorem demoEnv_eq_symm (t : Ty Empty) (a b : t.denote demoEnv.X) : demoEnv.eq t a b = demoEnv.eq t b a := by
  cases t
  case int k => exact Bool.beq_comm (α := BitVec k.bits) (a := a) (b := b)
  case string => exact Bool.beq_comm (α := String) (a := a) (b := b)
  all_goals rfl

theorem demoEnv_eq_refl (t : Ty Empty) (a : t.denote demoEnv.X) : demoEnv.eq t a a = true := by
  cases t
  case int k => exact beq_self_eq_true (α := BitVec k.bits) a
  case string => exact beq_self_eq_true (α := String) a
  all_goals rfl

end Revision
