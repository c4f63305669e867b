import Verif.Spec.ThirdIo
import Verif.Proofs.ThirdIo
import Verif.Props.Stream
import Verif.Props.Sink
import Verif.Props.Third

/-!
# Types of other crates on arbitrary readers and writers (C102)
-/

namespace Revision

variable (cfg : Cfg) (cap : Nat → Bool) (D : DecimalLib δ) (R : RegexLib ρ)

theorem Crate.good (i : Crate) : (i.io cfg cap D R).Good (i.codec cfg cap D R) := by
  cases i with
  | dateTime => exact dateTimeIo_good cfg
  | naiveDate => exact naiveDateIo_good cfg
  | naiveTime => exact naiveTimeIo_good cfg
  | timeDelta => exact timeDeltaIo_good cfg
  | coord => exact coordIo_good
  | lineString => exact lineStringIo_good cfg cap
  | multiPoint => exact multiPointIo_good cfg cap
  | multiLineString => exact multiLineStringIo_good cfg cap cap
  | polygon => exact polygonIo_good cfg cap cap
  | multiPolygon => exact multiPolygonIo_good cfg cap cap cap
  | decimal => exact decimalIo_good D
  | decimals => exact decimalsIo_good cfg cap D
  | regex => exact regexIo_good cfg cap R

/-- C102: decoding, skipping and checking a value of another crate from any reader is decoding, skipping and checking
the bytes the reader delivers. -/
theorem C102_read (buf : Nat → Nat) (i : Crate) :
    SameAsSlice ((i.io cfg cap D R).dec.onStream buf) (i.codec cfg cap D R).dec ∧
    SameAsSlice ((i.io cfg cap D R).skip.onStream buf) (i.codec cfg cap D R).skip ∧
    SameAsSlice ((i.io cfg cap D R).check.onStream buf) (i.codec cfg cap D R).check := by
  have h := (i.good cfg cap D R).models
  rw [← h.dec, ← h.skip, ← h.check]
  exact ⟨Prog.onStream_slice buf _, Prog.onStream_slice buf _, Prog.onStream_slice buf _⟩

/-- C102: an input that ends before the end of the value is reported as `Error::Io` by decoding and by skipping. -/
theorem C102_truncated (i : Crate) (p q r : Bytes) (hr : r.length < q.length) :
    (∀ v, (i.codec cfg cap D R).dec (p ++ q) = .ok (v, r) → (i.codec cfg cap D R).dec p = .err .io) ∧
    ((i.codec cfg cap D R).skip (p ++ q) = .ok ((), r) → (i.codec cfg cap D R).skip p = .err .io) := by
  have h := i.good cfg cap D R
  rw [← h.models.dec, ← h.models.skip]
  constructor
  · intro v hv
    obtain ⟨e, he, rfl⟩ := Prog.short_prefix h.short p q r v hv hr
    exact he
  · intro hv
    obtain ⟨e, he, rfl⟩ := Prog.short_prefix h.models.skip_short p q r () hv hr
    exact he

/-- C102: an error other than `Error::Io` is final, and `Error::Io` always means that input is missing. -/
theorem C102_error_kind (i : Crate) (s : Bytes) :
    (∀ e more, (i.codec cfg cap D R).dec s = .err e → e ≠ .io → (i.codec cfg cap D R).dec (s ++ more) = .err e) ∧
    ∃ more, (i.codec cfg cap D R).dec (s ++ more) ≠ .err .io := by
  have h := i.good cfg cap D R
  rw [← h.models.dec]
  refine ⟨fun e more he hne => Prog.final_err h.short s more e he hne, ?_⟩
  obtain ⟨more, hm⟩ := Prog.more_input h.sound s
  exact ⟨more, fun he => hm .io he rfl⟩

theorem Wr.any_writer {x : Wr} (hx : x.AllW) {b : Bytes} (h : x.toRes = .ok b) (w : Sink) :
    ((x.run w).1 = .ok () ∧ (x.run w).2.1 = b) ∨
      ((x.run w).1 = .err .io ∧ ∃ c, c ≠ [] ∧ (x.run w).2.1 ++ c = b) := by
  rw [Wr.toRes] at h
  have h1 : x.fin = .ok () := by cases hf : x.fin <;> rw [hf] at h <;> cases h
  rw [h1] at h
  cases h
  rw [Wr.run_eq]
  rcases runOps_spec _ hx w with ⟨h3, h4⟩ | ⟨h3, h4⟩
  · rw [h3]; exact .inl ⟨h1, h4⟩
  · rw [h3]; exact .inr ⟨rfl, h4⟩

/-- C102: if serialising a value of another crate reports success, the writer has accepted exactly the bytes of `to_vec`; if
the writer does not accept them all, it is `Error::Io` and the writer has accepted a proper prefix.  A writer that makes
progress accepts them all. -/
theorem C102_write (i : Crate) (v : i.X δ ρ) (b : Bytes) (h : (i.codec cfg cap D R).toVec v = .ok b) (w : Sink) :
    ((((i.io cfg cap D R).wr v).run w).1 = .ok () ∧ (((i.io cfg cap D R).wr v).run w).2.1 = b ∨
      (((i.io cfg cap D R).wr v).run w).1 = .err .io ∧ ∃ c, c ≠ [] ∧ (((i.io cfg cap D R).wr v).run w).2.1 ++ c = b) ∧
    (w.Willing → (((i.io cfg cap D R).wr v).run w).1 = .ok ()) := by
  have hg := i.good cfg cap D R
  have h : ((i.io cfg cap D R).wr v).toRes = .ok b := (hg.models.enc v).trans h
  refine ⟨Wr.any_writer (hg.all v) h w, fun hw => ?_⟩
  obtain ⟨h3, _, _⟩ := runOps_willing _ (hg.all v) w hw
  rw [Wr.run_eq, h3]
  rw [Wr.toRes] at h
  cases hf : ((i.io cfg cap D R).wr v).fin <;> rw [hf] at h <;> cases h

/-- A leap second of the last minute of a day. -/
def demoTime : NaiveTime := ⟨86399#32, 1500000000#32⟩

example : ((Crate.naiveTime).codec .default cap D R).toVec demoTime = .ok [23, 59, 59, 252, 0, 47, 104, 89] := by
  rfl

/-- It is written to a writer that accepts one byte at a time and is interrupted, and read from a reader that delivers
it in three pieces. -/
example : (((Crate.naiveTime.io .default cap D R).wr demoTime).run
      ⟨[.accept 1, .interrupted, .accept 1, .accept 3], none⟩).1 = .ok () :=
  (C102_write .default cap D R .naiveTime demoTime _ rfl _).2 ⟨rfl, by
    intro e he
    simp only [List.mem_cons, List.not_mem_nil, or_false] at he
    rcases he with rfl | rfl | rfl | rfl
    · exact .inr ⟨0, rfl⟩
    · exact .inl rfl
    · exact .inr ⟨0, rfl⟩
    · exact .inr ⟨2, rfl⟩⟩

example : ∃ s', (Crate.naiveTime.io .default cap D R).dec.onStream (fun _ => 8)
      [.data [23, 59], .interrupted, .data [59, 252, 0], .data [47, 104, 89, 7]] = .ok (demoTime, s') ∧
      s'.content = [7] :=
  (C102_read .default cap D R (fun _ => 8) .naiveTime).1
    [.data [23, 59], .interrupted, .data [59, 252, 0], .data [47, 104, 89, 7]]

/-- Cut in the nanoseconds. -/
example : (Crate.naiveTime.codec .default cap D R).dec [23, 59, 59, 252, 0] = .err .io :=
  (C102_truncated .default cap D R .naiveTime [23, 59, 59, 252, 0] [47, 104, 89] [] (by decide)).1 demoTime rfl

/-! ### Inside containers -/

section
variable (caps : Ty Crate → Nat → Bool)
  (cmp : (t : Ty Crate) → t.denote (Crate.X δ ρ) → t.denote (Crate.X δ ρ) → Ordering)
  (eq : (t : Ty Crate) → t.denote (Crate.X δ ρ) → t.denote (Crate.X δ ρ) → Bool)

/-- C102: the same for every type built over these types. -/
theorem C102_nested_read (buf : Nat → Nat) (t : Ty Crate) :
    SameAsSlice ((t.decP cfg (Crate.env cfg cap D R caps cmp eq) fun i => (i.io cfg cap D R).dec).onStream buf)
      (t.codec cfg (Crate.env cfg cap D R caps cmp eq)).dec ∧
    SameAsSlice ((t.skipP cfg (Crate.env cfg cap D R caps cmp eq) fun i => (i.io cfg cap D R).skip).onStream buf)
      (t.codec cfg (Crate.env cfg cap D R caps cmp eq)).skip :=
  let S := readersOf (E := Crate.env cfg cap D R caps cmp eq) (Crate.io cfg cap D R)
    fun i => (i.good cfg cap D R).models
  ⟨C82_decode cfg _ S buf t, C82_skip cfg _ S buf t⟩

/-- C102: and for writing, for the types without single `bool`s (C83). -/
theorem C102_nested_write_partial (t : Ty Crate) (ht : t.boolFree cfg = true) (v : t.denote (Crate.X δ ρ)) (b : Bytes)
    (h : (t.codec cfg (Crate.env cfg cap D R caps cmp eq)).toVec v = .ok b) (w : Sink) :
    let run := (t.writes cfg (Crate.env cfg cap D R caps cmp eq) (fun i => (i.io cfg cap D R).wr) v).run w
    (run.1 = .ok () ∧ run.2.1 = b) ∨ (run.1 = .err .io ∧ ∃ c, c ≠ [] ∧ run.2.1 ++ c = b) :=
  C83_any_writer_partial cfg (Crate.env cfg cap D R caps cmp eq)
    (writersOf (E := Crate.env cfg cap D R caps cmp eq) (Crate.io cfg cap D R) fun i => (i.good cfg cap D R).models)
    (fun i x => (i.good cfg cap D R).all x) t ht v b h w

example : (Ty.vec (.option (.pair (.ext .naiveTime) (.ext .decimal))) : Ty Crate).boolFree cfg = true := rfl

end

/-! ### Bitmaps -/

/-- C102: a bitmap is read from any reader as from the bytes it delivers. -/
theorem C102_bitmap_read (L : BitmapIo β) (valid : β → Prop) (buf : Nat → Nat) :
    SameAsSlice (L.dec.onStream buf) (bitmapC L.lib valid).dec := by
  have : L.dec.onSlice = (bitmapC L.lib valid).dec := Prog.onSlice_mapErr _ _
  rw [← this]
  exact Prog.onStream_slice buf _

/-- C102: what a library that uses `write_all` leaves in any writer: all of `to_vec`, or a proper prefix; but then the error
is `Error::Serialize`. -/
theorem C102_bitmap_write_partial (L : BitmapIo β) (valid : β → Prop) (v : β) (hL : ∀ o ∈ (L.ser v).ops, ∃ b, o = .all b)
    (b : Bytes) (h : (bitmapC L.lib valid).toVec v = .ok b) (w : Sink) :
    ((L.run v w).1 = .ok () ∧ (L.run v w).2.1 = b) ∨
      ((L.run v w).1 = .err .serialize ∧ ∃ c, c ≠ [] ∧ (L.run v w).2.1 ++ c = b) := by
  have hs : L.lib.ser v = (L.ser v).toRes := by
    have hr := Wr.run_vec (L.ser v)
    simp only [BitmapIo.lib, Wr.toRes]
    rcases hx : (L.ser v).run .vec with ⟨r, b', w'⟩
    rw [hx] at hr
    obtain ⟨h1, h2⟩ := hr
    simp only at h1 h2
    rw [← h1, ← h2]
    cases r <;> rfl
  have h : (match L.lib.ser v with | .err _ => Res.err .serialize | x => x) = .ok b := h
  rw [hs] at h
  have h : (L.ser v).toRes = .ok b := by
    cases hx : (L.ser v).toRes <;> rw [hx] at h <;> simp_all
  rw [BitmapIo.run]
  rcases hx : (L.ser v).run w with ⟨r, b', w'⟩
  have := Wr.any_writer hL h w
  rw [hx] at this
  rcases this with ⟨h1, h2⟩ | ⟨h1, h2⟩
  · simp only at h1 h2
    subst h1
    exact .inl ⟨rfl, h2⟩
  · simp only at h1 h2
    subst h1
    exact .inr ⟨rfl, h2⟩

/-- C102 is false of bitmaps as stated: whatever the library, a bitmap cut short, or read from a reader that fails, is never
reported as `Error::Io` but as `Error::Deserialize`, and a writer's failure as `Error::Serialize`. -/
theorem C102_bitmap_false (L : BitmapIo β) (valid : β → Prop) :
    (∀ p q r v, (bitmapC L.lib valid).dec (p ++ q) = .ok (v, r) → r.length < q.length →
      (bitmapC L.lib valid).dec p = .err .deserialize) ∧
    (∀ v w, (L.run v w).1 ≠ .err .io) := by
  constructor
  · intro p q r v h hr
    have hd : L.dec.onSlice = (bitmapC L.lib valid).dec := Prog.onSlice_mapErr _ _
    rw [← hd] at h ⊢
    obtain ⟨e, he, rfl⟩ := Prog.short_prefix (K := (· = .deserialize)) (P := L.dec)
      (Prog.Short.mapErr_any (K := (· = .deserialize)) _ (fun _ => rfl) L.de)
      p q r v h hr
    exact he
  · intro v w h
    rw [BitmapIo.run] at h
    rcases hx : (L.ser v).run w with ⟨r, x⟩
    rw [hx] at h
    cases r <;> simp at h

/-- A format of a length byte and the elements. -/
def demoBitmap : BitmapIo Bytes where
  de := do
    let n ← Prog.readByte
    Prog.readExact n.toNat
  ser v := (Wr.all [UInt8.ofNat v.length]).andThen (.all v)

/-- Two elements, cut after the first; and a buffer with room for one. -/
example : (bitmapC demoBitmap.lib fun _ => True).dec [2, 7] = .err .deserialize ∧
    (demoBitmap.run [7, 9] (.slice 2)).1 = .err .serialize := by
  refine ⟨(C102_bitmap_false demoBitmap fun _ => True).1 [2, 7] [9] [] [7, 9] rfl (by decide), ?_⟩
  rcases C102_bitmap_write_partial demoBitmap (fun _ => True) [7, 9] (by
    intro o ho
    simp only [demoBitmap, Wr.andThen, Wr.all, List.cons_append, List.nil_append, List.mem_cons, List.not_mem_nil,
      or_false] at ho
    rcases ho with rfl | rfl <;> exact ⟨_, rfl⟩) [2, 7, 9] (by decide +kernel) (.slice 2) with ⟨_, h⟩ | ⟨h, _⟩
  · exact absurd h (by decide +kernel)
  · exact h

end Revision
