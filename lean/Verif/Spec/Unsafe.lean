import Verif.Model.Unsafe

/-!
# Safety, and what the code with `unsafe` blocks does on a slice
-/

namespace Revision.Unsafe

variable {σ α β ι : Type}

/-- No run comes to undefined behaviour. -/
def Run.Safe (m : Run σ α) : Prop := ∀ s, (m.run s).1 ≠ .ub

/-- Safe code on a slice. -/
def ofRd (m : Rd α) : Run Bytes α := ⟨fun s => match m s with
  | .ok (a, r) => (.ok a, r)
  | .err e => (.err e, s)
  | .panic => (.panic, s)⟩

/-- The reader of a slice: `read_exact` fills the buffer, `take(n).read_to_end(v)` appends what there is. -/
def sliceSource : Source Bytes where
  readExact buf := ⟨fun s => if buf.length ≤ s.length then (.ok (s.take buf.length), s.drop buf.length) else (.err .io, s)⟩
  readToEnd n v := ⟨fun s =>
    (.ok ((s.take n).length, (s.take n).foldl (fun v b => v.push b.toBitVec) v), s.drop n)⟩
  exact_length := by
    intro buf s b s' h
    simp only at h
    split at h
    · injection h with h1 _; injection h1 with h1; subst h1
      simp; omega
    · injection h with h1 _; cases h1
  exact_safe := by
    intro buf s
    simp only
    split <;> exact nofun
  end_safe := by intro n v s; exact nofun

/-- What is seen of a run on a slice: the value and the bytes left, an error or a panic; nothing if it is undefined. -/
def seen (f : α → β) : Out α × Bytes → Option (Res (β × Bytes))
  | (.ok a, r) => some (.ok (f a, r))
  | (.err e, _) => some (.err e)
  | (.panic, _) => some .panic
  | (.ub, _) => none

/-- What is seen of a run that reads nothing. -/
def result : Out α × σ → Option (Res α)
  | (.ok a, _) => some (.ok a)
  | (.err e, _) => some (.err e)
  | (.panic, _) => some .panic
  | (.ub, _) => none

/-- The size in memory of the element types with a bulk impl. -/
def width : Ty ι → Option Nat
  | .bool => some 1
  | .int k => some (k.bits / 8)
  | .float f => some f.bytes
  | .uuid => some 16
  | _ => none

/-- A layout as Rust's types have: a value is its bytes, `size` of them, and `align` divides `size`. -/
structure Layout.Sound (L : Layout α) : Prop where
  size : ∀ v, (L.bytes v).length = L.size
  value : ∀ b v, b.length = L.size → (L.value b = some v ↔ b = L.bytes v)
  align : 0 < L.align ∧ L.align ∣ L.size

end Revision.Unsafe
