import Verif.Proofs.Unsafe

/-!
# C115: vectors are read and written without undefined behaviour

The crate reads and writes vectors through `unsafe`: slices of raw parts, `Vec::from_raw_parts`, `transmute` and
`assert_unchecked`.  In `Model/Unsafe.lean` each of these comes to `.ub` where its documentation says the behaviour is
undefined.
-/

namespace Revision

open Unsafe

variable {σ α β ι : Type}

/-- **C115** (reading a `Vec<T>`).  Whatever the element type, the `impl Read` (which may say that it filled a buffer that
it did not fill, or return any count of bytes), the machine's byte order, the allocator, and the safe code that reads the
length and the elements: no run of `Vec<T>::deserialize_revisioned` comes to undefined behaviour. -/
theorem C115_vec {X : ι → Type} [DecidableEq ι] (cfg : Cfg) (H : Heap) (little : Bool) (S : Source σ) (len : Run σ Nat)
    (t : Ty ι) (size : Nat) (dec : Run σ (t.denote X)) (hlen : len.Safe) (hdec : dec.Safe) :
    (decVec cfg H little S len t size dec).Safe :=
  (post_decVec S hlen t size hdec).safe

/-- **C115** (the other collections).  Nor does any run of the collections that are read into a vector first. -/
theorem C115_coll (H : Heap) (size : Nat) (len : Run σ Nat) (dec : Run σ α) (build : List α → β) (hlen : len.Safe)
    (hdec : dec.Safe) : (decColl H size len dec build).Safe :=
  (post_decColl build hlen hdec).safe

/-- **C115** (what is read).  On a little-endian machine and a slice the code with `unsafe` blocks does what the model of
the other properties says of `Vec<T>`: the same value and the same bytes left, or the same error, or the same panic. -/
theorem C115_same [DecidableEq ι] (cfg : Cfg) (E : Env ι) (H : Heap) (t : Ty ι) (size : Nat)
    (hsize : ∀ w, width t = some w → size = w) (hcap : ∀ n, E.cap t n = (H.grant n && n * size < 2 ^ 63)) (s : Bytes) :
    seen Block.elems ((decVec cfg H true sliceSource (ofRd (readLen cfg)) t size (ofRd (t.codec cfg E).dec)).run s) =
      some ((Ty.vec t).codec cfg E |>.dec s) :=
  same_decVec t hsize hcap _ s

/-- **C115** (what is read into the other collections). -/
theorem C115_coll_same (cfg : Cfg) (H : Heap) (size : Nat) (cap : Nat → Bool) (dec : Rd α) (build : List α → β)
    (hcap : ∀ n, cap n = (H.grant n && n * size < 2 ^ 63)) (s : Bytes) :
    seen id ((decColl H size (ofRd (readLen cfg)) (ofRd dec) build).run s) = some (readColl cfg cap dec build s) :=
  same_decColl hcap s

/-- **C115** (byte order).  A big-endian machine reads the same vectors of numbers from the same bytes, with the same
errors; only where the elements would take more bytes than a `usize` counts does it panic and not return
`IntegerOverflow`. -/
theorem C115_big_endian (cfg : Cfg) (H : Heap) (W w : Nat) (s : Bytes)
    (h : seen Block.elems ((decRaw H (numL true W w) 0 sliceSource (ofRd (readLen cfg))).run s) ≠
      some (.err .integerOverflow)) :
    seen Block.elems ((decEach H W w sliceSource (ofRd (readLen cfg))).run s) =
      seen Block.elems ((decRaw H (numL true W w) 0 sliceSource (ofRd (readLen cfg))).run s) := by
  rw [same_decEach (cap := fun n => H.grant n && n * w < 2 ^ 63) (fun _ => rfl) s]
  rw [same_decRaw (cap := fun n => H.grant n && n * w < 2 ^ 63) 0 (fun _ => rfl) s] at h ⊢
  congr 1
  unfold bulkC at h ⊢
  simp only [Rd.bind_run] at h ⊢
  revert h
  cases readLen cfg s with
  | ok p =>
    rcases p with ⟨n, r⟩
    simp only
    intro h
    by_cases h0 : n = 0
    · rw [if_pos h0, if_pos h0]
    · rw [if_neg h0, if_neg h0] at *
      by_cases hn : n * w < 2 ^ 64
      · rw [if_pos hn]
      · rw [if_neg hn] at h; exact absurd rfl h
  | err e => intro _; rfl
  | panic => intro _; rfl

/-- **C115** (writing).  A vector that exists (its elements take at most `isize::MAX` bytes) is written without undefined
behaviour, with the same bytes on a little-endian and a big-endian machine: those that the model of the other properties
says. -/
theorem C115_write [DecidableEq ι] (cfg : Cfg) (E : Env ι) (little : Bool) (t : Ty ι) (v : Block (t.denote E.X))
    (h : ∀ w, width t = some w → v.cap * w < 2 ^ 63) (s : σ) :
    result ((encVec cfg little t (encList (t.codec cfg E).enc) v).run s) = some ((Ty.vec t).codec cfg E |>.enc v.elems) :=
  encVec_result cfg E little t _ v h s

/-! ### The hypotheses are met -/

/-- An allocator that makes room for one element more than asked. -/
private def roomy : Heap := ⟨fun n => n < 1000, (· + 1), fun n => Nat.le_succ n⟩

/-- A reader that always says `Ok` and never fills a buffer; its `read_to_end` says that it read all it was asked for. -/
private def liar : Source Bytes where
  readExact buf := pure buf
  readToEnd n v := pure (n, v)
  exact_length := by intro buf s b s' h; injection h with h; injection h with h; rw [h]
  exact_safe := by intro buf s; exact nofun
  end_safe := by intro n v s; exact nofun

/-- The liar makes two zeros of no bytes, and an empty `Vec<i8>` where two elements were announced: wrong, but defined. -/
example : seen Block.elems ((decVec (X := fun _ : Empty => Unit) ⟨false, true⟩ roomy true liar (ofRd (readLen ⟨false, true⟩))
      (.int .u16) 2 (fail .io)).run [2]) = some (.ok ([0, 0], [])) ∧
    seen Block.elems ((decVec (X := fun _ : Empty => Unit) ⟨false, true⟩ roomy true liar (ofRd (readLen ⟨false, true⟩))
      (.int .i8) 1 (fail .io)).run [2]) = some (.ok ([], [])) := by decide +kernel

/-- A slice. -/
example : seen Block.elems ((decVec (X := fun _ : Empty => Unit) ⟨false, true⟩ roomy true sliceSource
      (ofRd (readLen ⟨false, true⟩)) (.int .u16) 2 (fail .io)).run [2, 1, 0, 2, 1, 9]) = some (.ok ([1, 258], [9])) := by
  decide +kernel

/-- C115: the memory model: numbers and truth values are their bytes, and a byte other than 0 and 1 is no `bool`. -/
theorem C115_layouts (little : Bool) (w : Nat) (hw : 0 < w) :
    (numL little (8 * w) w).Sound ∧ boolL.Sound ∧ ∀ b : UInt8, (boolL.value [b]).isSome = true ↔ b.toNat < 2 := by
  refine ⟨⟨fun v => ?_, fun b v hb => ?_, hw, Nat.dvd_refl _⟩, ⟨fun v => rfl, fun b v hb => ?_, by decide, by decide⟩, ?_⟩
  · unfold numL
    cases little <;> simp
  · unfold numL at hb ⊢
    simp only at hb ⊢
    have key : ∀ c : Bytes, c.length = w → (some (BitVec.ofNat (8 * w) (leVal c)) = some v ↔ c = leBytes w v.toNat) := by
      intro c hc
      constructor
      · intro h
        injection h with h
        subst h
        have h1 := leVal_lt c
        rw [BitVec.toNat_ofNat, ← pow256, ← hc, Nat.mod_eq_of_lt h1, leBytes_leVal]
      · rintro rfl
        rw [leVal_leBytes, pow256]
        congr 1
        apply BitVec.eq_of_toNat_eq
        rw [BitVec.toNat_ofNat, Nat.mod_mod, Nat.mod_eq_of_lt v.isLt]
    cases little
    · simp only [Bool.false_eq_true, if_false]
      rw [key _ (by simpa using hb)]
      constructor
      · intro h; rw [← h, List.reverse_reverse]
      · rintro rfl; rw [List.reverse_reverse]
    · exact key b hb
  · match b, hb with
    | [c], _ =>
      unfold boolL
      simp only
      split
      · rename_i h; cases h; cases v <;> decide
      · rename_i h; cases h; cases v <;> decide
      · rename_i h0 h1
        constructor
        · nofun
        · intro h
          cases v
          · exact absurd h h0
          · exact absurd h h1
  · intro b
    unfold boolL
    simp only
    split
    · rename_i h; cases h; decide
    · rename_i h; cases h; decide
    · rename_i h0 h1
      refine ⟨nofun, fun h => ?_⟩
      have : b = 0 ∨ b = 1 := by
        have : b.toNat = 0 ∨ b.toNat = 1 := by omega
        rcases this with h | h
        · exact .inl (UInt8.toNat_inj.1 h)
        · exact .inr (UInt8.toNat_inj.1 h)
      rcases this with rfl | rfl
      · exact absurd rfl h0
      · exact absurd rfl h1

/-- The model knows undefined behaviour when there is some: a `Vec<bool>` read as the numbers are, from the byte 2; a
capacity that is too small for the loop; a vector taken apart with the wrong capacity. -/
example : ((decRaw roomy boolL false sliceSource (ofRd (readLen ⟨false, true⟩))).run [1, 2]).1 = .ub ∧
    ((do let v ← withCapacity ⟨fun _ => true, id, Nat.le_refl⟩ 1 1; pushLoop (ofRd (readLE 8 1)) 2 v :
      Run Bytes (Block (BitVec 8))).run [1, 2]).1 = .ub ∧
    ((do let v ← withCapacity roomy 1 1; fromRawParts (numL true 8 1) (numL true 8 1) v 0 1 :
      Run Bytes (Block (BitVec 8))).run [1, 2]).1 = .ub := by
  refine ⟨?_, ?_, ?_⟩ <;> rfl

/-- Writing a vector with room to spare. -/
example : result ((encVec (X := fun _ : Empty => Unit) ⟨false, true⟩ true (.int .u16) (fun _ => .err .io)
      ⟨3, [1, 258], by decide⟩).run ()) = some (.ok [2, 1, 0, 2, 1]) := by decide +kernel

end Revision
