import Verif.Spec.Sink
import Verif.Proofs.Rd

/-! # Lemmas about writing to an arbitrary writer -/

namespace Revision
namespace Sink

theorem writeAll_nil (w : Sink) : w.writeAll [] = (.ok (), [], w) := by
  rw [writeAll]; simp

theorem writeAll_step (b : Bytes) (hb : b ≠ []) (w : Sink) :
    w.writeAll b = match w.write b with
      | (.ok n, w') =>
        if n = 0 then (.err .io, [], w')
        else ((w'.writeAll (b.drop n)).1, b.take n ++ (w'.writeAll (b.drop n)).2.1,
          (w'.writeAll (b.drop n)).2.2)
      | (.interrupted, w') => w'.writeAll b
      | (.failed, w') => (.err .io, [], w') := by
  rw [writeAll, dif_neg hb]
  split <;> rename_i h <;> simp [h]

/-- Induction along the calls of `write_all`. -/
theorem writeAll_induct {P : Bytes → Sink → Prop}
    (nil : ∀ w, P [] w)
    (zero : ∀ b w w', b ≠ [] → w.write b = (.ok 0, w') → P b w)
    (some : ∀ b w n w', b ≠ [] → w.write b = (.ok n, w') → n ≠ 0 → P (b.drop n) w' → P b w)
    (interrupted : ∀ b w w', b ≠ [] → w.write b = (.interrupted, w') → P b w' → P b w)
    (failed : ∀ b w w', b ≠ [] → w.write b = (.failed, w') → P b w) (b : Bytes) (w : Sink) :
    P b w := by
  induction hk : b.length + w.evs.length using Nat.strongRecOn generalizing b w with
  | _ k ih =>
  subst hk
  by_cases hb : b = []
  · subst hb; exact nil w
  · have hl : b.length ≠ 0 := by simpa using hb
    have he := write_evs b w
    rcases h : w.write b with ⟨n | _ | _, w'⟩
    · rw [h] at he
      simp only at he
      by_cases hn : n = 0
      · subst hn; exact zero b w w' hb h
      · exact some b w n w' hb h hn (ih _ (by simp only [List.length_drop]; omega) _ _ rfl)
    · rw [h] at he
      simp only at he
      have : w.evs.length ≠ 0 := by
        intro h0
        rw [List.length_eq_zero_iff] at h0
        simp only [write, h0] at h
        split at h <;> simp at h
      exact interrupted b w w' hb h (ih _ (by omega) _ _ rfl)
    · exact failed b w w' hb h

theorem write_le {b : Bytes} {w w' : Sink} {n : Nat} (h : w.write b = (.ok n, w')) : n ≤ b.length := by
  unfold write at h
  split at h
  · simp at h; omega
  · simp at h
  · simp at h
  · split at h
    · simp at h; omega
    · simp at h; omega

/-- What `write_all` guarantees. -/
theorem writeAll_spec (b : Bytes) (w : Sink) :
    ((w.writeAll b).1 = .ok () ∧ (w.writeAll b).2.1 = b) ∨
      ((w.writeAll b).1 = .err .io ∧ ∃ c, c ≠ [] ∧ (w.writeAll b).2.1 ++ c = b) := by
  induction b, w using writeAll_induct with
  | nil w => rw [writeAll_nil]; exact .inl ⟨rfl, rfl⟩
  | zero b w w' hb h =>
    rw [writeAll_step b hb, h]
    exact .inr ⟨rfl, b, hb, rfl⟩
  | some b w n w' hb h hn ih =>
    rw [writeAll_step b hb, h]
    simp only [if_neg hn]
    rcases ih with ⟨h1, h2⟩ | ⟨h1, c, hc, h2⟩
    · exact .inl ⟨h1, by rw [h2, List.take_append_drop]⟩
    · exact .inr ⟨h1, c, hc, by rw [List.append_assoc, h2, List.take_append_drop]⟩
  | interrupted b w w' hb h ih => rw [writeAll_step b hb, h]; exact ih
  | failed b w w' hb h =>
    rw [writeAll_step b hb, h]
    exact .inr ⟨rfl, b, hb, rfl⟩

theorem Willing.write {b : Bytes} (hb : b ≠ []) {w : Sink} (hw : w.Willing) :
    ((w.write b).1 = .interrupted ∨ ∃ n, n ≠ 0 ∧ (w.write b).1 = .ok n) ∧ (w.write b).2.Willing := by
  obtain ⟨evs, room⟩ := w
  obtain ⟨h1, h2⟩ := hw
  simp only at h1 h2
  subst h1
  have hl : b.length ≠ 0 := by simpa using hb
  cases evs with
  | nil => exact ⟨.inr ⟨b.length, hl, rfl⟩, rfl, by simp [Sink.write]⟩
  | cons e evs =>
    have h3 : Sink.Willing ⟨evs, none⟩ := ⟨rfl, fun e he => h2 e (by simp [he])⟩
    rcases h2 e (by simp) with rfl | ⟨n, rfl⟩
    · exact ⟨.inl rfl, h3⟩
    · exact ⟨.inr ⟨min (n + 1) b.length, by omega, rfl⟩, h3⟩

theorem Willing.writeAll (b : Bytes) (w : Sink) (hw : w.Willing) :
    (w.writeAll b).1 = .ok () ∧ (w.writeAll b).2.2.Willing := by
  induction b, w using writeAll_induct with
  | nil w => rw [writeAll_nil]; exact ⟨rfl, hw⟩
  | zero b w w' hb h =>
    have := (hw.write hb).1
    rw [h] at this
    simp at this
  | some b w n w' hb h hn ih =>
    have := (hw.write hb).2
    rw [h] at this
    rw [writeAll_step b hb, h]
    simp only [if_neg hn]
    exact ih this
  | interrupted b w w' hb h ih =>
    have := (hw.write hb).2
    rw [h] at this
    rw [writeAll_step b hb, h]
    exact ih this
  | failed b w w' hb h =>
    have := (hw.write hb).1
    rw [h] at this
    simp at this

theorem Steady.willing {w : Sink} (h : w.Steady) : w.Willing :=
  ⟨h.1, fun e he => .inr (h.2 e he)⟩

theorem Steady.write {b : Bytes} (hb : b ≠ []) {w : Sink} (hw : w.Steady) :
    (∃ n, n ≠ 0 ∧ (w.write b).1 = .ok n) ∧ (w.write b).2.Steady := by
  obtain ⟨evs, room⟩ := w
  obtain ⟨h1, h2⟩ := hw
  simp only at h1 h2
  subst h1
  have hl : b.length ≠ 0 := by simpa using hb
  cases evs with
  | nil => exact ⟨⟨b.length, hl, rfl⟩, rfl, by simp [Sink.write]⟩
  | cons e evs =>
    have h3 : Sink.Steady ⟨evs, none⟩ := ⟨rfl, fun e he => h2 e (by simp [he])⟩
    obtain ⟨n, rfl⟩ := h2 e (by simp)
    exact ⟨⟨min (n + 1) b.length, by omega, rfl⟩, h3⟩

theorem Steady.writeAll (b : Bytes) (w : Sink) (hw : w.Steady) :
    (w.writeAll b).1 = .ok () ∧ (w.writeAll b).2.2.Steady := by
  refine ⟨(Willing.writeAll b w hw.willing).1, ?_⟩
  induction b, w using writeAll_induct with
  | nil w => rw [writeAll_nil]; exact hw
  | zero b w w' hb h =>
    have := (hw.write hb).1
    rw [h] at this
    simp at this
  | some b w n w' hb h hn ih =>
    have := (hw.write hb).2
    rw [h] at this
    rw [writeAll_step b hb, h]
    simp only [if_neg hn]
    exact ih this
  | interrupted b w w' hb h ih =>
    have := (hw.write hb).2
    rw [h] at this
    rw [writeAll_step b hb, h]
    exact ih this
  | failed b w w' hb h =>
    have := (hw.write hb).1
    rw [h] at this
    simp at this

theorem slice_writeAll (b : Bytes) (n : Nat) :
    if b.length ≤ n then (slice n).writeAll b = (.ok (), b, slice (n - b.length))
    else (slice n).writeAll b = (.err .io, b.take n, slice 0) := by
  by_cases hb : b = []
  · subst hb; simp [writeAll_nil]
  · have hl : b.length ≠ 0 := by simpa using hb
    rw [writeAll_step b hb]
    have hw : (slice n).write b = (.ok (min n b.length), slice (n - min n b.length)) := rfl
    rw [hw]
    simp only
    by_cases h : b.length ≤ n
    · rw [if_pos h, Nat.min_eq_right h, if_neg hl]
      simp [writeAll_nil]
    · rw [if_neg h, Nat.min_eq_left (by omega)]
      by_cases h0 : n = 0
      · subst h0; simp
      · rw [if_neg h0, Nat.sub_self]
        have hd : b.drop n ≠ [] := by
          intro he
          have : (b.drop n).length = 0 := by rw [he]; rfl
          simp at this; omega
        have h2 : (slice 0).writeAll (b.drop n) = (.err .io, [], slice 0) := by
          rw [writeAll_step _ hd]
          have : (slice 0).write (b.drop n) = (.ok 0, slice 0) := by simp [Sink.write, slice]
          rw [this]
          simp
        rw [h2]
        simp

end Sink

/-- All calls are `write_all`. -/
def AllOps (l : List WOp) : Prop := ∀ o ∈ l, ∃ b, o = .all b

theorem runOps_append (l m : List WOp) (w : Sink) :
    runOps (l ++ m) w = match (runOps l w).1 with
      | .ok () => ((runOps m (runOps l w).2.2).1, (runOps l w).2.1 ++ (runOps m (runOps l w).2.2).2.1,
          (runOps m (runOps l w).2.2).2.2)
      | e => (e, (runOps l w).2) := by
  induction l generalizing w with
  | nil => simp [runOps]
  | cons o l ih =>
    simp only [List.cons_append, runOps]
    cases ho : (o.run w).1 with
    | ok u =>
      cases u
      simp only [ih]
      cases (runOps l (o.run w).2.2).1 with
      | ok u => cases u; simp
      | err e => simp
      | panic => simp
    | err e => simp
    | panic => simp

theorem runOps_spec (l : List WOp) (hl : AllOps l) (w : Sink) :
    ((runOps l w).1 = .ok () ∧ (runOps l w).2.1 = l.flatMap WOp.bytes) ∨
      ((runOps l w).1 = .err .io ∧ ∃ c, c ≠ [] ∧ (runOps l w).2.1 ++ c = l.flatMap WOp.bytes) := by
  induction l generalizing w with
  | nil => exact .inl ⟨rfl, rfl⟩
  | cons o l ih =>
    obtain ⟨b, rfl⟩ := hl o (by simp)
    have ih := ih (fun o ho => hl o (by simp [ho])) (w.writeAll b).2.2
    simp only [runOps, WOp.run, List.flatMap_cons, WOp.bytes]
    rcases w.writeAll_spec b with ⟨h1, h2⟩ | ⟨h1, c, hc, h2⟩
    · rw [h1]
      simp only
      rw [h2]
      rcases ih with ⟨h3, h4⟩ | ⟨h3, c, hc, h4⟩
      · exact .inl ⟨h3, by rw [h4]⟩
      · exact .inr ⟨h3, c, hc, by rw [List.append_assoc, h4]⟩
    · rw [h1]
      refine .inr ⟨rfl, c ++ l.flatMap WOp.bytes, by simp [hc], ?_⟩
      simp only
      rw [← List.append_assoc, h2]

theorem runOps_sublist (l : List WOp) (w : Sink) :
    ((runOps l w).1 = .ok () ∨ (runOps l w).1 = .err .io) ∧ (runOps l w).2.1.Sublist (l.flatMap WOp.bytes) := by
  induction l generalizing w with
  | nil => exact ⟨.inl rfl, List.Sublist.slnil⟩
  | cons o l ih =>
    have key : ((o.run w).1 = .ok () ∨ (o.run w).1 = .err .io) ∧ (o.run w).2.1.Sublist o.bytes := by
      cases o with
      | all b =>
        rcases w.writeAll_spec b with ⟨h1, h2⟩ | ⟨h1, c, -, h2⟩
        · exact ⟨.inl h1, by rw [WOp.run, h2]; exact List.Sublist.refl _⟩
        · exact ⟨.inr h1, List.IsPrefix.sublist ⟨c, h2⟩⟩
      | once b =>
        unfold WOp.run
        simp only
        split
        · exact ⟨.inl rfl, List.take_sublist _ _⟩
        · exact ⟨.inr rfl, List.nil_sublist _⟩
        · exact ⟨.inr rfl, List.nil_sublist _⟩
    simp only [runOps, List.flatMap_cons]
    rcases key.1 with h | h
    · rw [h]
      exact ⟨(ih _).1, List.Sublist.append key.2 (ih _).2⟩
    · rw [h]
      exact ⟨.inr rfl, key.2.trans (List.sublist_append_left _ _)⟩

theorem runOps_willing (l : List WOp) (hl : AllOps l) (w : Sink) (hw : w.Willing) :
    (runOps l w).1 = .ok () ∧ (runOps l w).2.1 = l.flatMap WOp.bytes ∧ (runOps l w).2.2.Willing := by
  induction l generalizing w with
  | nil => exact ⟨rfl, rfl, hw⟩
  | cons o l ih =>
    obtain ⟨b, rfl⟩ := hl o (by simp)
    obtain ⟨h1, h2⟩ := Sink.Willing.writeAll b w hw
    have h3 : (w.writeAll b).2.1 = b := by
      rcases w.writeAll_spec b with ⟨_, h⟩ | ⟨h, _⟩
      · exact h
      · rw [h1] at h; simp at h
    obtain ⟨h4, h5, h6⟩ := ih (fun o ho => hl o (by simp [ho])) _ h2
    simp only [runOps, WOp.run, List.flatMap_cons, WOp.bytes, h1]
    exact ⟨h4, by rw [h3, h5], h6⟩

/-- Single `write` calls hand over one byte. -/
def SmallOps (l : List WOp) : Prop := ∀ o ∈ l, (∃ b, o = .all b) ∨ ∃ x, o = .once [x]

theorem runOps_steady (l : List WOp) (hl : SmallOps l) (w : Sink) (hw : w.Steady) :
    (runOps l w).1 = .ok () ∧ (runOps l w).2.1 = l.flatMap WOp.bytes ∧ (runOps l w).2.2.Steady := by
  induction l generalizing w with
  | nil => exact ⟨rfl, rfl, hw⟩
  | cons o l ih =>
    have ih := ih (fun o ho => hl o (by simp [ho]))
    rcases hl o (by simp) with ⟨b, rfl⟩ | ⟨x, rfl⟩
    · obtain ⟨h1, h2⟩ := Sink.Steady.writeAll b w hw
      have h3 : (w.writeAll b).2.1 = b := by
        rcases w.writeAll_spec b with ⟨_, h⟩ | ⟨h, _⟩
        · exact h
        · rw [h1] at h; simp at h
      obtain ⟨h4, h5, h6⟩ := ih _ h2
      simp only [runOps, WOp.run, List.flatMap_cons, WOp.bytes, h1]
      exact ⟨h4, by rw [h3, h5], h6⟩
    · obtain ⟨⟨n, hn, h1⟩, h2⟩ := hw.write (b := [x]) (by simp)
      have hle : n ≤ 1 := Sink.write_le (b := [x]) (w' := (w.write [x]).2) (by rw [← h1])
      have : n = 1 := by omega
      subst this
      have hr : (WOp.once [x]).run w = (.ok (), [x], (w.write [x]).2) := by
        rcases hx : w.write [x] with ⟨a, w'⟩
        rw [hx] at h1
        simp only at h1
        subst h1
        simp [WOp.run, hx]
      obtain ⟨h4, h5, h6⟩ := ih _ h2
      simp only [runOps, hr, List.flatMap_cons, WOp.bytes]
      exact ⟨h4, by rw [h5], h6⟩

theorem runOps_slice (l : List WOp) (hl : AllOps l) (n : Nat) :
    if (l.flatMap WOp.bytes).length ≤ n then
      runOps l (.slice n) = (.ok (), l.flatMap WOp.bytes, .slice (n - (l.flatMap WOp.bytes).length))
    else runOps l (.slice n) = (.err .io, (l.flatMap WOp.bytes).take n, .slice 0) := by
  induction l generalizing n with
  | nil => simp [runOps]
  | cons o l ih =>
    obtain ⟨b, rfl⟩ := hl o (by simp)
    have ih := ih (fun o ho => hl o (by simp [ho]))
    have h1 := Sink.slice_writeAll b n
    simp only [runOps, WOp.run, List.flatMap_cons, WOp.bytes, List.length_append]
    by_cases hb : b.length ≤ n
    · rw [if_pos hb] at h1
      rw [h1]
      simp only
      have ih := ih (n - b.length)
      by_cases h : (l.flatMap WOp.bytes).length ≤ n - b.length
      · rw [if_pos h] at ih
        rw [ih]
        rw [if_pos (by omega)]
        rw [Nat.sub_sub]
      · rw [if_neg h] at ih
        rw [ih]
        rw [if_neg (by omega)]
        rw [List.take_append, List.take_of_length_le hb]
    · rw [if_neg hb] at h1
      rw [h1]
      rw [if_neg (by omega)]
      rw [List.take_append, Nat.sub_eq_zero_of_le (by omega : n ≤ b.length)]
      simp

namespace Wr

@[simp] theorem toRes_done : done.toRes = .ok [] := rfl
@[simp] theorem toRes_fail (e : Err) : (fail e).toRes = .err e := rfl
@[simp] theorem toRes_all (b : Bytes) : (all b).toRes = .ok b := by
  simp [toRes, all, bytesOf, WOp.bytes]
@[simp] theorem toRes_once (b : Bytes) : (once b).toRes = .ok b := by
  simp [toRes, once, bytesOf, WOp.bytes]

@[simp] theorem toRes_andThen (x y : Wr) :
    (x.andThen y).toRes = (do
      let a ← x.toRes
      let b ← y.toRes
      pure (a ++ b)) := by
  obtain ⟨ops, fin⟩ := x
  obtain ⟨ops', fin'⟩ := y
  cases fin with
  | err e => rfl
  | panic => rfl
  | ok u =>
    cases u
    cases fin' with
    | err e => rfl
    | panic => rfl
    | ok u => cases u; simp [andThen, toRes, bytesOf]

theorem toRes_each (f : α → Wr) (enc : α → Res Bytes) (h : ∀ a, (f a).toRes = enc a) (l : List α) :
    (each f l).toRes = encList enc l := by
  induction l with
  | nil => rfl
  | cons a l ih => simp [each, encList, h, ih]

theorem toRes_elems (cfg : Cfg) (f : α → Wr) (enc : α → Res Bytes) (h : ∀ a, (f a).toRes = enc a)
    (l : List α) :
    (elems cfg f l).toRes = (do
      let b ← encList enc l
      pure (encLen cfg l.length ++ b)) := by
  rw [elems, toRes_andThen, len, toRes_all]
  by_cases h0 : l.length = 0
  · rw [List.length_eq_zero_iff] at h0
    subst h0
    simp [encList]
  · rw [if_neg h0, toRes_each f enc h]
    rfl

theorem toRes_bytes (cfg : Cfg) (b : Bytes) : (bytes cfg b).toRes = .ok (encBytes cfg b) := by
  simp [bytes, len, encBytes]

theorem toRes_bulk (cfg : Cfg) (w : Nat) (l : List (BitVec W)) :
    (bulk cfg w l).toRes = .ok (encLen cfg l.length ++ l.flatMap fun v => leBytes w v.toNat) := by
  rw [bulk, toRes_andThen, len, toRes_all]
  by_cases h0 : l.length = 0
  · rw [List.length_eq_zero_iff] at h0
    subst h0
    simp
  · rw [if_neg h0, toRes_all]
    rfl

theorem toRes_bools (cfg : Cfg) (l : List Bool) :
    (bools cfg l).toRes = .ok (encLen cfg l.length ++ packBools (divCeil8 l.length) l) := by
  rw [bools, toRes_andThen, len, toRes_all]
  by_cases h0 : l.length = 0
  · rw [List.length_eq_zero_iff] at h0
    subst h0
    simp [divCeil8, packBools]
  · rw [if_neg h0, toRes_all]
    rfl

/-- All calls are `write_all`. -/
def AllW (x : Wr) : Prop := AllOps x.ops

/-- Single `write` calls hand over one byte. -/
def SmallW (x : Wr) : Prop := SmallOps x.ops

theorem AllW.small {x : Wr} (h : x.AllW) : x.SmallW := fun o ho => .inl (h o ho)

theorem AllW.done : done.AllW := by intro o ho; simp [Wr.done] at ho
theorem AllW.fail (e : Err) : (fail e).AllW := by intro o ho; simp [Wr.fail] at ho
theorem AllW.all (b : Bytes) : (all b).AllW := by
  intro o ho; simp [Wr.all] at ho; exact ⟨b, ho⟩

theorem AllW.andThen {x y : Wr} (hx : x.AllW) (hy : y.AllW) : (x.andThen y).AllW := by
  unfold Wr.andThen
  split
  · intro o ho
    simp only [List.mem_append] at ho
    exact ho.elim (hx o) (hy o)
  · exact hx

theorem SmallW.andThen {x y : Wr} (hx : x.SmallW) (hy : y.SmallW) : (x.andThen y).SmallW := by
  unfold Wr.andThen
  split
  · intro o ho
    simp only [List.mem_append] at ho
    exact ho.elim (hx o) (hy o)
  · exact hx

theorem AllW.each {f : α → Wr} (h : ∀ a, (f a).AllW) (l : List α) : (each f l).AllW := by
  induction l with
  | nil => exact .done
  | cons a l ih => exact (h a).andThen ih

theorem SmallW.each {f : α → Wr} (h : ∀ a, (f a).SmallW) (l : List α) : (each f l).SmallW := by
  induction l with
  | nil => exact AllW.done.small
  | cons a l ih => exact (h a).andThen ih

theorem AllW.ite {c : Prop} [Decidable c] {x y : Wr} (hx : x.AllW) (hy : y.AllW) :
    (if c then x else y).AllW := by split <;> assumption

theorem SmallW.ite {c : Prop} [Decidable c] {x y : Wr} (hx : x.SmallW) (hy : y.SmallW) :
    (if c then x else y).SmallW := by split <;> assumption

theorem AllW.elems (cfg : Cfg) {f : α → Wr} (h : ∀ a, (f a).AllW) (l : List α) :
    (elems cfg f l).AllW := (AllW.all _).andThen (.ite .done (.each h l))

theorem SmallW.elems (cfg : Cfg) {f : α → Wr} (h : ∀ a, (f a).SmallW) (l : List α) :
    (elems cfg f l).SmallW := (AllW.all _).small.andThen (.ite AllW.done.small (.each h l))

theorem AllW.bulk (cfg : Cfg) (w : Nat) (l : List (BitVec W)) : (bulk cfg w l).AllW :=
  (AllW.all _).andThen (.ite .done (.all _))

theorem AllW.bools (cfg : Cfg) (l : List Bool) : (bools cfg l).AllW :=
  (AllW.all _).andThen (.ite .done (.all _))

theorem AllW.bytes (cfg : Cfg) (b : Bytes) : (bytes cfg b).AllW := (AllW.all _).andThen (.all _)

/-- On a writer that accepts everything the serialiser leaves `toRes`. -/
theorem run_vec (x : Wr) : (x.run Sink.vec).1 = x.fin ∧ (x.run Sink.vec).2.1 = x.bytesOf := by
  have key : ∀ l : List WOp, runOps l Sink.vec = (.ok (), l.flatMap WOp.bytes, Sink.vec) := by
    intro l
    induction l with
    | nil => rfl
    | cons o l ih =>
      have h : o.run Sink.vec = (.ok (), o.bytes, Sink.vec) := by
        cases o with
        | all b =>
          by_cases hb : b = []
          · subst hb; simp [WOp.run, Sink.writeAll_nil, WOp.bytes]
          · have hl : b.length ≠ 0 := by simpa using hb
            have hv : Sink.vec.write b = (.ok b.length, Sink.vec) := rfl
            simp [WOp.run, WOp.bytes, Sink.writeAll_step b hb, hv, Sink.writeAll_nil, hb]
        | once b => simp [WOp.run, WOp.bytes, Sink.write, Sink.vec]
      simp [runOps, h, ih]
  rw [run, key]
  exact ⟨rfl, rfl⟩

end Wr

theorem vecW_toRes (cfg : Cfg) (E : Env ι) (t : Ty ι) (f : t.denote E.X → Wr)
    (c : Codec (t.denote E.X)) (h : ∀ a, (f a).toRes = c.enc a) (l : List (t.denote E.X)) :
    (vecW cfg E t f l).toRes = (vecOf cfg E t c).enc l := by
  have hv : ∀ l, (Wr.elems cfg f l).toRes = (vecC cfg (E.cap t) c).enc l := fun l =>
    Wr.toRes_elems cfg f c.enc h l
  cases t <;> try exact hv l
  all_goals
    simp only [vecW, vecOf]
    split
    · first | exact Wr.toRes_bools cfg l | exact Wr.toRes_bulk cfg _ l
    · exact hv l

theorem vecW_all (cfg : Cfg) (E : Env ι) (t : Ty ι) (f : t.denote E.X → Wr)
    (h : (∀ a, (f a).AllW) ∨ ((∃ _ : t = .bool, True) ∧ cfg.specialised = true))
    (l : List (t.denote E.X)) : (vecW cfg E t f l).AllW := by
  rcases h with h | ⟨⟨rfl, -⟩, hs⟩
  · have hv : ∀ l, (Wr.elems cfg f l).AllW := fun l => .elems cfg h l
    cases t <;> try exact hv l
    · exact .ite (.bools cfg l) (hv l)
    all_goals exact .ite (.bulk cfg _ l) (hv l)
  · simp only [vecW, hs, if_true]
    exact .bools cfg l

theorem vecW_small (cfg : Cfg) (E : Env ι) (t : Ty ι) (f : t.denote E.X → Wr)
    (h : ∀ a, (f a).SmallW) (l : List (t.denote E.X)) : (vecW cfg E t f l).SmallW := by
  have hv : ∀ l, (Wr.elems cfg f l).SmallW := fun l => .elems cfg h l
  cases t <;> try exact hv l
  · exact .ite (Wr.AllW.bools cfg l).small (hv l)
  all_goals exact .ite (Wr.AllW.bulk cfg _ l).small (hv l)

theorem Env.Writers.toRes {E : Env ι} (W : E.Writers) (i : ι) (x : E.X i) :
    (W.wr i x).toRes = (E.extC i).enc x := by
  have h1 := W.to_vec i x
  have h2 := W.to_vec_bytes i x
  rw [(Wr.run_vec _).1] at h1
  rw [(Wr.run_vec _).2] at h2
  rw [Wr.toRes]
  cases he : (E.extC i).enc x with
  | ok b =>
    rw [he] at h1
    simp only [Res.ok_bind] at h1
    rw [h1, h2 b he]
  | err e => rw [he] at h1; rw [h1]; rfl
  | panic => rw [he] at h1; rw [h1]; rfl

theorem Ty.writes_toRes (cfg : Cfg) (E : Env ι) (W : E.Writers) (t : Ty ι) (v : t.denote E.X) :
    (t.writes cfg E W.wr v).toRes = (t.codec cfg E).enc v := by
  induction t with
  | ext i => exact W.toRes i v
  | vec t ih => exact vecW_toRes cfg E t _ _ ih v
  | unit => rfl
  | bool => exact Wr.toRes_once _
  | int k => exact Wr.toRes_all _
  | float f => exact Wr.toRes_all _
  | char => exact Wr.toRes_all _
  | string => exact Wr.toRes_bytes _ _
  | path =>
    simp only [Ty.writes, Ty.codec, pathC, Codec.mirror]
    split
    · rename_i h; rw [Wr.toRes_bytes, h]
    · rename_i h
      cases hf : fromUtf8 v with
      | ok s => exact absurd hf (h s)
      | err e => rfl
      | panic => rfl
  | bytes => exact Wr.toRes_bytes _ _
  | uuid => exact Wr.toRes_all _
  | duration => simp [Ty.writes, Ty.codec, durationC, Codec.mirror]
  | systemTime =>
    simp only [Ty.writes, Ty.codec, systemTimeC]
    split <;> simp
  | notNan f => exact Wr.toRes_all _
  | option t ih =>
    cases v with
    | none => exact Wr.toRes_all _
    | some a => simp [Ty.writes, Ty.codec, optionC, ih]
  | result t e ih1 ih2 =>
    cases v with
    | ok a => simp [Ty.writes, Ty.codec, resultC, ih1]
    | error a => simp [Ty.writes, Ty.codec, resultC, ih2]
  | bound t ih =>
    cases v with
    | unbounded => exact Wr.toRes_all _
    | included a => simp [Ty.writes, Ty.codec, boundC, ih]
    | excluded a => simp [Ty.writes, Ty.codec, boundC, ih]
  | wrap t ih => exact ih v
  | pair s t ih1 ih2 => simp [Ty.writes, Ty.codec, pairC, ih1, ih2]
  | array n t ih => exact Wr.toRes_each _ _ ih v
  | btreeMap k w ih1 ih2 =>
    exact Wr.toRes_elems cfg _ (pairC (k.codec cfg E) (w.codec cfg E)).enc
      (fun p => by simp [pairC, ih1, ih2]) v
  | hashMap k w ih1 ih2 =>
    exact Wr.toRes_elems cfg _ (pairC (k.codec cfg E) (w.codec cfg E)).enc
      (fun p => by simp [pairC, ih1, ih2]) v
  | btreeSet k ih => exact Wr.toRes_elems cfg _ _ ih v
  | hashSet k ih => exact Wr.toRes_elems cfg _ _ ih v
  | binaryHeap t ih => exact Wr.toRes_elems cfg _ _ ih v
  | vector t ih => exact Wr.toRes_elems cfg _ _ ih v

theorem Ty.writes_small (cfg : Cfg) (E : Env ι) (W : E.Writers) (t : Ty ι) (v : t.denote E.X) :
    (t.writes cfg E W.wr v).SmallW := by
  induction t with
  | ext i => exact W.small i v
  | vec t ih => exact vecW_small cfg E t _ ih v
  | unit => exact Wr.AllW.small .done
  | bool => intro o ho; simp [Ty.writes, Wr.once] at ho; exact .inr ⟨_, ho⟩
  | int k => exact Wr.AllW.small (.all _)
  | float f => exact Wr.AllW.small (.all _)
  | char => exact Wr.AllW.small (.all _)
  | string => exact Wr.AllW.small (.bytes _ _)
  | path =>
    simp only [Ty.writes]
    split
    · exact Wr.AllW.small (.bytes _ _)
    · exact Wr.AllW.small (.fail _)
  | bytes => exact Wr.AllW.small (.bytes _ _)
  | uuid => exact Wr.AllW.small (.all _)
  | duration => exact Wr.AllW.small (.andThen (.all _) (.all _))
  | systemTime => exact .ite (Wr.AllW.small (.fail _)) (Wr.AllW.small (.andThen (.all _) (.all _)))
  | notNan f => exact Wr.AllW.small (.all _)
  | option t ih =>
    cases v with
    | none => exact Wr.AllW.small (.all _)
    | some a => exact .andThen (Wr.AllW.small (.all _)) (ih a)
  | result t e ih1 ih2 =>
    cases v with
    | ok a => exact .andThen (Wr.AllW.small (.all _)) (ih1 a)
    | error a => exact .andThen (Wr.AllW.small (.all _)) (ih2 a)
  | bound t ih =>
    cases v with
    | unbounded => exact Wr.AllW.small (.all _)
    | included a => exact .andThen (Wr.AllW.small (.all _)) (ih a)
    | excluded a => exact .andThen (Wr.AllW.small (.all _)) (ih a)
  | wrap t ih => exact ih v
  | pair s t ih1 ih2 => exact .andThen (ih1 _) (ih2 _)
  | array n t ih => exact .each ih v
  | btreeMap k w ih1 ih2 => exact .elems cfg (fun p => .andThen (ih1 _) (ih2 _)) v
  | hashMap k w ih1 ih2 => exact .elems cfg (fun p => .andThen (ih1 _) (ih2 _)) v
  | btreeSet k ih => exact .elems cfg ih v
  | hashSet k ih => exact .elems cfg ih v
  | binaryHeap t ih => exact .elems cfg ih v
  | vector t ih => exact .elems cfg ih v

theorem Ty.writes_all (cfg : Cfg) (E : Env ι) (W : E.Writers) (hW : W.WriteAll) (t : Ty ι)
    (ht : t.boolFree cfg = true) (v : t.denote E.X) :
    (t.writes cfg E W.wr v).AllW := by
  induction t with
  | ext i => exact hW i v
  | vec t ih =>
    refine vecW_all cfg E t _ ?_ v
    cases t <;> try exact .inl (ih ht)
    exact .inr ⟨⟨rfl, trivial⟩, ht⟩
  | unit => exact .done
  | bool => simp [Ty.boolFree] at ht
  | int k => exact .all _
  | float f => exact .all _
  | char => exact .all _
  | string => exact .bytes _ _
  | path =>
    simp only [Ty.writes]
    split
    · exact .bytes _ _
    · exact .fail _
  | bytes => exact .bytes _ _
  | uuid => exact .all _
  | duration => exact .andThen (.all _) (.all _)
  | systemTime => exact .ite (.fail _) (.andThen (.all _) (.all _))
  | notNan f => exact .all _
  | option t ih =>
    cases v with
    | none => exact .all _
    | some a => exact .andThen (.all _) (ih ht a)
  | result t e ih1 ih2 =>
    simp only [Ty.boolFree, Bool.and_eq_true] at ht
    cases v with
    | ok a => exact .andThen (.all _) (ih1 ht.1 a)
    | error a => exact .andThen (.all _) (ih2 ht.2 a)
  | bound t ih =>
    cases v with
    | unbounded => exact .all _
    | included a => exact .andThen (.all _) (ih ht a)
    | excluded a => exact .andThen (.all _) (ih ht a)
  | wrap t ih => exact ih ht v
  | pair s t ih1 ih2 =>
    simp only [Ty.boolFree, Bool.and_eq_true] at ht
    exact .andThen (ih1 ht.1 _) (ih2 ht.2 _)
  | array n t ih => exact .each (ih ht) v
  | btreeMap k w ih1 ih2 =>
    simp only [Ty.boolFree, Bool.and_eq_true] at ht
    exact .elems cfg (fun p => .andThen (ih1 ht.1 _) (ih2 ht.2 _)) v
  | hashMap k w ih1 ih2 =>
    simp only [Ty.boolFree, Bool.and_eq_true] at ht
    exact .elems cfg (fun p => .andThen (ih1 ht.1 _) (ih2 ht.2 _)) v
  | btreeSet k ih => exact .elems cfg (ih ht) v
  | hashSet k ih => exact .elems cfg (ih ht) v
  | binaryHeap t ih => exact .elems cfg (ih ht) v
  | vector t ih => exact .elems cfg (ih ht) v

end Revision
