import Verif.Spec.Work
import Verif.Proofs.Alloc
import Verif.Proofs.Std2
import Verif.Proofs.Canon

/-! Helper lemmas: counting steps. -/

namespace Revision

theorem Rd.bind_pure_self (m : Rd α) : (m >>= fun a => (pure a : Rd α)) = m := by
  rcases m with ⟨f⟩
  show Rd.mk _ = Rd.mk _
  congr
  funext s
  show (match f s with | .ok (a, r) => (pure a : Rd α).run r | .err e => .err e | .panic => .panic) = f s
  rcases f s with ⟨_, _⟩ | _ | _ <;> rfl

namespace Ct

theorem bind_run (m : Ct α) (f : α → Ct β) (s : Bytes) : (m >>= f) s = match m s with
    | (k, .ok (a, r)) => (k + (f a r).1, (f a r).2) | (k, .err e) => (k, .err e) | (k, .panic) => (k, .panic) := rfl

@[simp] theorem erase_pure (a : α) : (pure a : Ct α).erase = pure a := rfl

@[simp] theorem erase_of (m : Rd α) : (of m).erase = m := rfl

@[simp] theorem erase_bind (m : Ct α) (f : α → Ct β) : (m >>= f).erase = (m.erase >>= fun a => (f a).erase) := by
  show Rd.mk _ = Rd.mk _
  congr
  funext s
  show ((m >>= f) s).2 = match (m s).2 with | .ok (a, r) => (f a r).2 | .err e => .err e | .panic => .panic
  show (match m s with
    | (k, .ok (a, r)) => (k + (f a r).1, (f a r).2) | (k, .err e) => (k, .err e) | (k, .panic) => (k, .panic)).2 = _
  rcases m s with ⟨k, ⟨a, r⟩ | e | _⟩ <;> rfl

@[simp high] theorem erase_tick_bind (n : Nat) (m : Ct α) : (tick n >>= fun _ => m).erase = m.erase := rfl

/-- Where calls are counted copies count for nothing. -/
theorem copy_calls (n : Nat) (m : Ct α) : (tick (Tariff.copy * n) >>= fun _ => m) = m := by
  show Ct.mk _ = Ct.mk _
  congr
  funext s
  show (0 * n + (m s).1, (m s).2) = m s
  rw [Nat.zero_mul, Nat.zero_add]

@[simp] theorem erase_mapErr (m : Ct α) (f) : (m.mapErr f).erase = m.erase.mapErr f := rfl

@[simp] theorem erase_discard (m : Ct α) : m.discard.erase = m.erase.discard := by
  unfold discard Rd.discard; simp

@[simp] theorem erase_ite {c : Prop} [Decidable c] (m n : Ct α) :
    (if c then m else n).erase = if c then m.erase else n.erase := by split <;> rfl

@[simp] theorem erase_readN (m : Ct α) : ∀ n, (readN n m).erase = Rd.readN n m.erase
  | 0 => rfl
  | n + 1 => by simp only [readN, Rd.readN, erase_bind, erase_readN m n, erase_pure]

@[simp] theorem erase_repeatN (m : Ct Unit) : ∀ n, (repeatN n m).erase = Rd.repeatN n m.erase
  | 0 => rfl
  | n + 1 => by simp only [repeatN, Rd.repeatN, erase_bind, erase_repeatN m n]

end Ct

section
variable [Tariff]

namespace Counted.Counts

theorem leaf (c : Codec α) : (Counted.leaf c).Counts c := ⟨rfl, rfl, rfl, rfl⟩

theorem call {x : Counted α} {c : Codec α} (h : x.Counts c) : x.call.Counts c := ⟨h.dec, h.skip, h.skipS, h.check⟩

theorem bulk {c : Codec (List α)} (hc : c.check = c.dec.discard) : (Counted.bulk c).Counts c := by
  have h : (Counted.bulk c).dec.erase = c.dec := by
    show (do Ct.tick Tariff.call; let l ← Ct.of c.dec; Ct.tick (Tariff.call * l.length); pure l : Ct (List α)).erase = _
    simp only [Ct.erase_bind, Ct.erase_of]
    exact Rd.bind_pure_self c.dec
  refine ⟨h, rfl, rfl, ?_⟩
  show ((Counted.bulk c).dec.discard).erase = _
  rw [Ct.erase_discard, h, hc]

theorem both {x : Counted α} {y : Counted β} {c : Codec α} {d : Codec β} (h : x.Counts c) (h' : y.Counts d) :
    (x.both y).Counts (pairC c d) := by
  constructor <;> simp [Counted.both, pairC, h.dec, h.skip, h.skipS, h.check, h'.dec, h'.skip, h'.skipS, h'.check]

theorem array {x : Counted α} {c : Codec α} (n : Nat) (h : x.Counts c) : (x.array n).Counts (arrayC n c) := by
  constructor <;> simp [Counted.array, arrayC, h.dec, h.skip, h.skipS, h.check]

theorem wrap {x : Counted α} {c : Codec α} (h : x.Counts c) : x.wrap.Counts (wrapC c) := by
  constructor <;> simp [Counted.wrap, wrapC, h.dec, h.skip, h.skipS]

theorem option {x : Counted α} {c : Codec α} (cfg : Cfg) (h : x.Counts c) : (x.option cfg).Counts (optionC cfg c) := by
  constructor <;> simp [Counted.option, optionC, h.dec, h.skip, h.skipS]

theorem result {x : Counted α} {y : Counted β} {c : Codec α} {d : Codec β} (cfg : Cfg) (h : x.Counts c) (h' : y.Counts d) :
    (x.result cfg y).Counts (resultC cfg c d) := by
  constructor <;> simp [Counted.result, resultC, h.dec, h.skip, h.skipS, h'.dec, h'.skip, h'.skipS]

theorem bound {x : Counted α} {c : Codec α} (cfg : Cfg) (h : x.Counts c) : (x.bound cfg).Counts (boundC cfg c) := by
  constructor <;> simp [Counted.bound, boundC, h.dec, h.skip, h.skipS]

theorem vec {x : Counted α} {c : Codec α} (cfg : Cfg) (cap) (h : x.Counts c) : (x.vec cfg cap).Counts (vecC cfg cap c) := by
  constructor <;> simp [Counted.vec, vecC, h.dec, h.skip, h.skipS]

theorem coll {x : Counted α} {c : Codec α} (cfg : Cfg) (cap inv build) (h : x.Counts c) :
    (x.coll cfg cap build).Counts (collC cfg cap c inv build) := by
  constructor <;> simp [Counted.coll, collC, readColl, h.dec, h.skip, h.skipS]

end Counted.Counts

variable {ι : Type}

theorem countedVec_counts (cfg : Cfg) (E : Env ι) (t : Ty ι) {x : Counted (t.denote E.X)} {c : Codec (t.denote E.X)}
    (h : x.Counts c) : (countedVec cfg E t x).Counts (vecOf cfg E t c) := by
  cases t <;> simp only [countedVec, vecOf] <;> (try split) <;> first
    | exact .call (.vec cfg _ h)
    | exact .bulk rfl

theorem Ty.counted_counts (cfg : Cfg) (E : Env ι) (x : (i : ι) → Counted (E.X i)) (hx : ∀ i, (x i).Counts (E.extC i)) :
    ∀ t : Ty ι, (t.counted cfg E x).Counts (t.codec cfg E)
  | .option t => .call (.option cfg (counted_counts cfg E x hx t))
  | .result t e => .call (.result cfg (counted_counts cfg E x hx t) (counted_counts cfg E x hx e))
  | .bound t => .call (.bound cfg (counted_counts cfg E x hx t))
  | .wrap t => .call (.wrap (counted_counts cfg E x hx t))
  | .pair s t => .call (.both (counted_counts cfg E x hx s) (counted_counts cfg E x hx t))
  | .array n t => .call (.array n (counted_counts cfg E x hx t))
  | .vec t => countedVec_counts cfg E t (counted_counts cfg E x hx t)
  | .btreeMap k v => .call (.coll cfg _ _ _ (.both (counted_counts cfg E x hx k) (counted_counts cfg E x hx v)))
  | .btreeSet k => .call (.coll cfg _ _ _ (counted_counts cfg E x hx k))
  | .hashMap k v => .call (.coll cfg _ _ _ (.both (counted_counts cfg E x hx k) (counted_counts cfg E x hx v)))
  | .hashSet k => .call (.coll cfg _ _ _ (counted_counts cfg E x hx k))
  | .binaryHeap t => .call (.coll cfg _ _ _ (counted_counts cfg E x hx t))
  | .vector t => .call (.coll cfg _ _ _ (counted_counts cfg E x hx t))
  | .ext i => hx i
  | .unit => .leaf _
  | .bool => .leaf _
  | .int k => .leaf _
  | .float f => .leaf _
  | .char => .leaf _
  | .string => .leaf _
  | .path => .leaf _
  | .bytes => .leaf _
  | .uuid => .leaf _
  | .duration => .leaf _
  | .systemTime => .leaf _
  | .notNan f => .leaf _

end

variable {ι : Type}

/-! ### Costs -/

/-- Reading costs at most `n` steps and `R` per byte; a successful reader that is `w` leaves `Z` steps of that unused. -/
def Ct.Costs (Z R n : Nat) (w : Bool) (m : Ct α) : Prop :=
  (∀ s k a r, m s = (k, .ok (a, r)) → k + (if w then Z else 0) + R * r.length ≤ n + R * s.length) ∧
    ∀ s, (m s).1 ≤ n + R * s.length

namespace Ct.Costs

variable {Z R : Nat}

theorem weaken {m : Ct α} {n n' : Nat} {w w' : Bool} (h : Costs Z R n w m) (hn : n ≤ n') (hw : w' = true → w = true) :
    Costs Z R n' w' m := by
  refine ⟨fun s k a r e => ?_, fun s => ?_⟩
  · have := h.1 s k a r e
    cases w' <;> cases w <;> simp_all <;> omega
  · have := h.2 s; omega

theorem pure (a : α) : Costs Z R 0 false (Pure.pure a : Ct α) := by
  refine ⟨fun s k a r e => ?_, fun s => Nat.zero_le _⟩
  cases e; simp

theorem tick (n : Nat) : Costs Z R n false (Ct.tick n) := by
  refine ⟨fun s k a r e => ?_, fun s => Nat.le_add_right _ _⟩
  cases e; simp

theorem fail (e : Err) (w : Bool) : Costs Z R 0 w (Ct.of (Rd.fail e) : Ct α) :=
  ⟨fun s k a r e => (by cases e), fun s => Nat.zero_le _⟩

theorem bind {m : Ct α} {f : α → Ct β} {n n' : Nat} {w w' : Bool} (h : Costs Z R n w m) (hf : ∀ a, Costs Z R n' w' (f a)) :
    Costs Z R (n + n') (w || w') (m >>= f) := by
  have key : ∀ s, (m >>= f) s = match m s with
    | (k, .ok (a, r)) => (k + (f a r).1, (f a r).2) | (k, .err e) => (k, .err e) | (k, .panic) => (k, .panic) := fun s => rfl
  refine ⟨fun s k b r e => ?_, fun s => ?_⟩
  · rw [key] at e
    rcases hm : m s with ⟨k1, ⟨a, s1⟩ | _ | _⟩ <;> rw [hm] at e <;> try (cases e; done)
    simp only [Prod.mk.injEq] at e
    have h1 := h.1 s k1 a s1 hm
    have h2 := (hf a).1 s1 (f a s1).1 b r (by rw [← e.2])
    cases w <;> cases w' <;> simp only [Bool.or_false, Bool.or_true, Bool.false_eq_true, if_true, if_false] at * <;> omega
  · rw [key]
    have h0 := h.2 s
    rcases hm : m s with ⟨k1, ⟨a, s1⟩ | _ | _⟩ <;> rw [hm] at h0 <;> simp only at h0 ⊢
    · have h1 := h.1 s k1 a s1 hm
      have h2 := (hf a).2 s1
      omega
    · omega
    · omega

/-- What follows a reader that takes a byte is paid for by that byte. -/
theorem pay {m : Rd α} {f : α → Ct β} {n : Nat} {w : Bool} (h : m.Eats 1) (hf : ∀ a, Costs Z R n w (f a)) (hR : n + Z ≤ R) :
    Costs Z R 0 true (Ct.of m >>= f) := by
  have key : ∀ s, (Ct.of m >>= f) s = match m s with
    | .ok (a, r) => (0 + (f a r).1, (f a r).2) | .err e => (0, .err e) | .panic => (0, .panic) := by
    intro s
    show (match ((0 : Nat), m s) with
      | (k, .ok (a, r)) => (k + (f a r).1, (f a r).2) | (k, .err e) => (k, .err e) | (k, .panic) => (k, .panic)) = _
    rcases m s with ⟨_, _⟩ | _ | _ <;> rfl
  have byte : ∀ s a s1, m s = .ok (a, s1) → R * s1.length + R ≤ R * s.length := by
    intro s a s1 e
    have := Nat.mul_le_mul_left R (h s a s1 e)
    rwa [Nat.mul_add, Nat.mul_one] at this
  refine ⟨fun s k b r e => ?_, fun s => ?_⟩
  · rw [key] at e
    rcases hm : m s with ⟨a, s1⟩ | _ | _ <;> rw [hm] at e <;> try (cases e; done)
    simp only [Prod.mk.injEq] at e
    have h1 := byte s a s1 hm
    have h2 := (hf a).1 s1 (f a s1).1 b r (by rw [← e.2])
    cases w <;> simp only [Bool.false_eq_true, if_true, if_false] at * <;> omega
  · rw [key]
    rcases hm : m s with ⟨a, s1⟩ | _ | _ <;> simp only
    · have h1 := byte s a s1 hm
      have h2 := (hf a).2 s1
      omega
    · omega
    · omega

theorem of {m : Rd α} (h : m.Eats 1) (hR : Z ≤ R) : Costs Z R 0 true (Ct.of m) := by
  have := pay (Z := Z) (R := R) (f := fun a => (Pure.pure a : Ct α)) h (fun a => pure a) (by omega)
  have e : (Ct.of m >>= fun a => (Pure.pure a : Ct α)) = Ct.of m := by
    show Ct.mk _ = Ct.mk _
    congr
    funext s
    show (match ((0 : Nat), m s) with
      | (k, .ok (a, r)) => (k + ((Pure.pure a : Ct α) r).1, ((Pure.pure a : Ct α) r).2)
      | (k, .err e) => (k, .err e) | (k, .panic) => (k, .panic)) = _
    rcases m s with ⟨_, _⟩ | _ | _ <;> rfl
  rwa [e] at this

theorem of0 {m : Rd α} (h : m.Eats 0) : Costs Z R 0 false (Ct.of m) := by
  refine ⟨fun s k a r e => ?_, fun s => Nat.zero_le _⟩
  cases e' : m s with
  | ok p =>
    have : Ct.of m s = (0, m s) := rfl
    rw [this, e'] at e
    cases e
    have := Nat.mul_le_mul_left R (h s a r e')
    simpa using this
  | err _ => have : Ct.of m s = (0, m s) := rfl
             rw [this, e'] at e; cases e
  | panic => have : Ct.of m s = (0, m s) := rfl
             rw [this, e'] at e; cases e

theorem mapErr {m : Ct α} {n : Nat} {w : Bool} (h : Costs Z R n w m) (f) : Costs Z R n w (m.mapErr f) := by
  refine ⟨fun s k a r e => ?_, h.2⟩
  simp only [Ct.mapErr, Prod.mk.injEq] at e
  rcases hm : m s with ⟨k1, ⟨a1, s1⟩ | _ | _⟩ <;> rw [hm] at e <;> simp only [Res.mapErr] at e
  · obtain ⟨rfl, e⟩ := e
    cases e
    exact h.1 s _ _ _ hm
  · cases e.2
  · cases e.2

theorem discard {m : Ct α} {n : Nat} {w : Bool} (h : Costs Z R n w m) : Costs Z R n w m.discard := by
  have := h.bind (f := fun _ => (Pure.pure () : Ct Unit)) fun _ => pure ()
  simp only [Bool.or_false, Nat.add_zero] at this
  exact this

theorem ite {c : Prop} [Decidable c] {m m' : Ct α} {n : Nat} {w : Bool} (h : Costs Z R n w m) (h' : Costs Z R n w m') :
    Costs Z R n w (if c then m else m') := by split <;> assumption

/-- A fixed number of values. -/
theorem readN_fixed {m : Ct α} {n : Nat} {w : Bool} (h : Costs Z R n w m) :
    ∀ k, Costs Z R (k * n) (k != 0 && w) (Ct.readN k m)
  | 0 => by rw [Nat.zero_mul]; exact pure _
  | k + 1 => by
    have := h.bind fun a => (readN_fixed h k).bind fun as => pure (a :: as)
    refine this.weaken (by rw [Nat.succ_mul]; omega) ?_
    simp only [Bool.or_false]
    cases w <;> simp

theorem repeatN_fixed {m : Ct Unit} {n : Nat} {w : Bool} (h : Costs Z R n w m) :
    ∀ k, Costs Z R (k * n) (k != 0 && w) (Ct.repeatN k m)
  | 0 => by rw [Nat.zero_mul]; exact pure _
  | k + 1 => by
    have := h.bind fun _ => repeatN_fixed h k
    refine this.weaken (by rw [Nat.succ_mul]; omega) ?_
    cases w <;> simp

/-- Elements that pay for themselves: only the last one, if it fails, costs more than its bytes. -/
theorem loop {m : Ct α} {f : α → Ct β} {g : Ct β} {n : Nat} (h : Costs Z R n true m) (hn : n ≤ Z)
    (hf : ∀ a, (∀ s k b r, f a s = (k, .ok (b, r)) → k + R * r.length ≤ R * s.length) ∧ ∀ s, (f a s).1 ≤ n + R * s.length)
    (e : g = (m >>= f)) :
    (∀ s k b r, g s = (k, .ok (b, r)) → k + R * r.length ≤ R * s.length) ∧ ∀ s, (g s).1 ≤ n + R * s.length := by
  subst e
  have key : ∀ s, (m >>= f) s = match m s with
    | (k, .ok (a, r)) => (k + (f a r).1, (f a r).2) | (k, .err e) => (k, .err e) | (k, .panic) => (k, .panic) := fun s => rfl
  refine ⟨fun s k b r e => ?_, fun s => ?_⟩
  · rw [key] at e
    rcases hm : m s with ⟨k1, ⟨a, s1⟩ | _ | _⟩ <;> rw [hm] at e <;> try (cases e; done)
    simp only [Prod.mk.injEq] at e
    have h1 := h.1 s k1 a s1 hm
    have h2 := (hf a).1 s1 (f a s1).1 b r (by rw [← e.2])
    simp only [if_true] at h1
    omega
  · rw [key]
    have h0 := h.2 s
    rcases hm : m s with ⟨k1, ⟨a, s1⟩ | _ | _⟩ <;> rw [hm] at h0 <;> simp only at h0 ⊢
    · have h1 := h.1 s k1 a s1 hm
      have h2 := (hf a).2 s1
      simp only [if_true] at h1
      omega
    · omega
    · omega

theorem readN {m : Ct α} {n : Nat} (h : Costs Z R n true m) (hn : n ≤ Z) (k : Nat) : Costs Z R n false (Ct.readN k m) := by
  have : ∀ k, (∀ s j b r, Ct.readN k m s = (j, .ok (b, r)) → j + R * r.length ≤ R * s.length) ∧
      ∀ s, (Ct.readN k m s).1 ≤ n + R * s.length := by
    intro k
    induction k with
    | zero => exact ⟨fun s j b r e => by cases e; omega, fun s => Nat.zero_le _⟩
    | succ k ih =>
      refine loop h hn (f := fun a => Ct.readN k m >>= fun as => Pure.pure (a :: as)) (fun a => ?_) rfl
      have key : ∀ s, (Ct.readN k m >>= fun as => (Pure.pure (a :: as) : Ct (List α))) s = match Ct.readN k m s with
        | (j, .ok (as, r)) => (j, .ok (a :: as, r)) | (j, .err e) => (j, .err e) | (j, .panic) => (j, .panic) := fun s => by
          rw [Ct.bind_run]
          rcases Ct.readN k m s with ⟨_, ⟨_, _⟩ | _ | _⟩ <;> rfl
      refine ⟨fun s j b r e => ?_, fun s => ?_⟩
      · rw [key] at e
        rcases hm : Ct.readN k m s with ⟨k1, ⟨a1, s1⟩ | _ | _⟩ <;> rw [hm] at e <;> cases e
        exact ih.1 s _ _ _ hm
      · rw [key]
        have := ih.2 s
        rcases hm : Ct.readN k m s with ⟨k1, ⟨a1, s1⟩ | _ | _⟩ <;> rw [hm] at this <;> exact this
  refine ⟨fun s j b r e => ?_, (this k).2⟩
  have := (this k).1 s j b r e
  simp only [Bool.false_eq_true, if_false]
  omega

theorem repeatN {m : Ct Unit} {n : Nat} (h : Costs Z R n true m) (hn : n ≤ Z) (k : Nat) :
    Costs Z R n false (Ct.repeatN k m) := by
  have : ∀ k, (∀ s j b r, Ct.repeatN k m s = (j, .ok (b, r)) → j + R * r.length ≤ R * s.length) ∧
      ∀ s, (Ct.repeatN k m s).1 ≤ n + R * s.length := by
    intro k
    induction k with
    | zero => exact ⟨fun s j b r e => by cases e; omega, fun s => Nat.zero_le _⟩
    | succ k ih => exact loop h hn (f := fun _ => Ct.repeatN k m) (fun _ => ih) rfl
  refine ⟨fun s j b r e => ?_, (this k).2⟩
  have := (this k).1 s j b r e
  simp only [Bool.false_eq_true, if_false]
  omega

end Ct.Costs

/-! ### The supported types -/

/-- All four readers cost at most that. -/
structure Counted.Costs (Z R n : Nat) (w : Bool) (c : Counted α) : Prop where
  dec : c.dec.Costs Z R n w
  skip : c.skip.Costs Z R n w
  skipS : c.skipS.Costs Z R n w
  check : c.check.Costs Z R n w

theorem Rd.discard_eats1 {m : Rd α} (h : m.Eats 1) : m.discard.Eats 1 := Rd.Eats.bind0 h fun _ => Rd.Eats.pure _

theorem Rd.consume_eats_n (n : Nat) : (Rd.consume n).Eats n := by
  intro s b r h
  simp only [Rd.consume] at h
  split at h
  · cases h
  · cases h; rw [List.length_drop]; omega

theorem Codec.Weighty.mirror {valid enc} {dec : Rd α} (h : dec.Eats 1) : (Codec.mirror valid enc dec).Weighty :=
  ⟨h, Rd.discard_eats1 h, Rd.discard_eats1 h, Rd.discard_eats1 h⟩

theorem skipBytes_eats1 (cfg : Cfg) : (skipBytes cfg).Eats 1 :=
  Rd.Eats.bind0 (readLen_eats cfg) fun _ => (Rd.Eats.advance _).weaken (Nat.zero_le _)

theorem skipBytesS_eats1 (cfg : Cfg) : (skipBytesS cfg).Eats 1 :=
  Rd.Eats.bind0 (readLen_eats cfg) fun _ => (Rd.consume_eats_n _).weaken (Nat.zero_le _)

namespace Counted.Costs

variable {Z R n : Nat} {w : Bool}

theorem leaf {c : Codec α} (h : c.Weighty) (hR : Z ≤ R) : (Counted.leaf c).Costs Z R 1 true :=
  ⟨(Ct.Costs.tick 1).bind fun _ => .of h.dec hR, (Ct.Costs.tick 1).bind fun _ => .of h.skip hR,
    (Ct.Costs.tick 1).bind fun _ => .of h.skipS hR, (Ct.Costs.tick 1).bind fun _ => .of h.check hR⟩

theorem call {x : Counted α} (h : x.Costs Z R n w) : x.call.Costs Z R (1 + n) w :=
  ⟨(Ct.Costs.tick 1).bind fun _ => h.dec, (Ct.Costs.tick 1).bind fun _ => h.skip,
    (Ct.Costs.tick 1).bind fun _ => h.skipS, (Ct.Costs.tick 1).bind fun _ => h.check⟩

theorem both {x : Counted α} {y : Counted β} {n' : Nat} {w' : Bool} (h : x.Costs Z R n w) (h' : y.Costs Z R n' w') :
    (x.both y).Costs Z R (n + n') (w || w') :=
  ⟨(h.dec.bind fun _ => h'.dec.bind fun _ => .pure _).weaken (by omega) (by simp),
    h.skip.bind fun _ => h'.skip, h.skipS.bind fun _ => h'.skipS, h.check.bind fun _ => h'.check⟩

theorem array {x : Counted α} (k : Nat) (h : x.Costs Z R n w) : (x.array k).Costs Z R (k * n) (k != 0 && w) :=
  ⟨h.dec.readN_fixed k, h.skip.repeatN_fixed k, h.skipS.repeatN_fixed k, h.check.repeatN_fixed k⟩

theorem wrap {x : Counted α} (h : x.Costs Z R n w) : x.wrap.Costs Z R n w := ⟨h.dec, h.skip, h.skipS, h.dec.discard⟩

open Ct.Costs in
theorem option {x : Counted α} (cfg : Cfg) (h : x.Costs Z R n w) (hR : n + Z ≤ R) : (x.option cfg).Costs Z R 0 true := by
  have dec : (x.option cfg).dec.Costs Z R 0 true :=
    pay (decInt_eats cfg _) (n := n) (w := false) (fun t => ite ((pure _).weaken (Nat.zero_le _) nofun)
      (ite ((h.dec.bind fun a => pure _).weaken (Nat.le_refl _) nofun) ((fail _ _).weaken (Nat.zero_le _) id))) hR
  have skip : ∀ m : Ct Unit, m.Costs Z R n w → (do
      let t ← Ct.of (decInt cfg .u8)
      if t = 0 then Pure.pure () else if t = 1 then m else Ct.of (Rd.fail .deserialize) : Ct Unit).Costs Z R 0 true := fun m hm =>
    pay (decInt_eats cfg _) (n := n) (w := false) (fun t => ite ((pure _).weaken (Nat.zero_le _) nofun)
      (ite (hm.weaken (Nat.le_refl _) nofun) ((fail _ _).weaken (Nat.zero_le _) id))) hR
  exact ⟨dec, skip _ h.skip, skip _ h.skipS, dec.discard⟩

open Ct.Costs in
theorem result {x : Counted α} {y : Counted β} {n' : Nat} {w' : Bool} (cfg : Cfg) (h : x.Costs Z R n w)
    (h' : y.Costs Z R n' w') (hR : n + Z ≤ R) (hR' : n' + Z ≤ R) : (x.result cfg y).Costs Z R 0 true := by
  have e1 : n ≤ max n n' := Nat.le_max_left _ _
  have e2 : n' ≤ max n n' := Nat.le_max_right _ _
  have hm : max n n' + Z ≤ R := by omega
  have dec : (x.result cfg y).dec.Costs Z R 0 true :=
    pay (readU32_eats cfg) (n := max n n') (w := false) (fun t => ite (((h.dec.mapErr _).bind fun a => pure _).weaken e1 nofun)
      (ite (((h'.dec.mapErr _).bind fun a => pure _).weaken e2 nofun) ((fail _ _).weaken (Nat.zero_le _) id))) hm
  have skip : ∀ m m' : Ct Unit, m.Costs Z R n w → m'.Costs Z R n' w' → (do
      let t ← Ct.of (readU32 cfg)
      if t = 0 then m else if t = 1 then m' else Ct.of (Rd.fail .deserialize) : Ct Unit).Costs Z R 0 true := fun m m' k k' =>
    pay (readU32_eats cfg) (n := max n n') (w := false) (fun t => ite (k.weaken e1 nofun)
      (ite (k'.weaken e2 nofun) ((fail _ _).weaken (Nat.zero_le _) id))) hm
  exact ⟨dec, skip _ _ h.skip h'.skip, skip _ _ h.skipS h'.skipS, dec.discard⟩

open Ct.Costs in
theorem bound {x : Counted α} (cfg : Cfg) (h : x.Costs Z R n w) (hR : n + Z ≤ R) : (x.bound cfg).Costs Z R 0 true := by
  have dec : (x.bound cfg).dec.Costs Z R 0 true :=
    pay (readU32_eats cfg) (n := n) (w := false) (fun t => ite ((pure _).weaken (Nat.zero_le _) nofun)
      (ite (((h.dec.mapErr _).bind fun a => pure _).weaken (Nat.le_refl _) nofun)
        (ite (((h.dec.mapErr _).bind fun a => pure _).weaken (Nat.le_refl _) nofun) ((fail _ _).weaken (Nat.zero_le _) id)))) hR
  have skip : ∀ m : Ct Unit, m.Costs Z R n w → (do
      let t ← Ct.of (readU32 cfg)
      if t = 0 then Pure.pure () else if t = 1 then m else if t = 2 then m else Ct.of (Rd.fail .deserialize) : Ct Unit).Costs Z R 0 true :=
    fun m hm => pay (readU32_eats cfg) (n := n) (w := false) (fun t => ite ((pure _).weaken (Nat.zero_le _) nofun)
      (ite (hm.weaken (Nat.le_refl _) nofun) (ite (hm.weaken (Nat.le_refl _) nofun) ((fail _ _).weaken (Nat.zero_le _) id)))) hR
  exact ⟨dec, skip _ h.skip, skip _ h.skipS, dec.discard⟩

open Ct.Costs in
theorem loops (cfg : Cfg) {m : Ct Unit} (h : m.Costs Z R n true) (hn : n ≤ Z) (hR : n + Z ≤ R) :
    (do let k ← Ct.of (readLen cfg); Ct.repeatN k m : Ct Unit).Costs Z R 0 true :=
  pay (readLen_eats cfg) (fun k => h.repeatN hn k) hR

open Ct.Costs in
theorem vec {x : Counted α} (cfg : Cfg) (cap : Nat → Bool) (h : x.Costs Z R n true) (hn : n ≤ Z) (hR : n + Z ≤ R) :
    (x.vec cfg cap).Costs Z R 0 true := by
  have dec : (x.vec cfg cap).dec.Costs Z R 0 true :=
    pay (readLen_eats cfg) (n := n) (w := false) (fun k => ite ((pure _).weaken (Nat.zero_le _) nofun)
      (((of0 (Rd.Eats.alloc _)).bind fun _ => h.dec.readN hn k).weaken (by omega) id)) hR
  exact ⟨dec, loops cfg h.skip hn hR, loops cfg h.skipS hn hR, dec.discard⟩

open Ct.Costs in
theorem coll {x : Counted α} (cfg : Cfg) (cap : Nat → Bool) (build) (h : x.Costs Z R n true) (hn : n ≤ Z) (hR : n + Z ≤ R) :
    (x.coll cfg cap build).Costs Z R 0 true := by
  have dec : (x.coll cfg cap build).dec.Costs Z R 0 true :=
    pay (readLen_eats cfg) (n := n) (w := false) (fun k =>
      ((of0 (Rd.Eats.alloc _)).bind fun _ => (h.dec.readN hn k).bind fun _ => pure _).weaken (by omega) nofun) hR
  exact ⟨dec, loops cfg h.skip hn hR, loops cfg h.skipS hn hR, dec.discard⟩

/-- A vector read in bulk pays for its elements if each byte stands for at most `R` of them. -/
theorem bulk {c : Codec (List α)} (hs : c.skip.Eats 1) (hsS : c.skipS.Eats 1)
    (hd : ∀ s l r, c.dec s = .ok (l, r) → l.length + Z + R * r.length ≤ R * s.length) (hR : Z ≤ R) :
    (Counted.bulk c).Costs Z R 1 true := by
  have dec : (Counted.bulk c).dec.Costs Z R 1 true := by
    have key : ∀ s, (Counted.bulk c).dec s = match c.dec s with
      | .ok (l, r) => (1 + l.length, .ok (l, r)) | .err e => (1, .err e) | .panic => (1, .panic) := by
      intro s
      show (do Ct.tick 1; let l ← Ct.of c.dec; Ct.tick (1 * l.length); pure l : Ct (List α)) s = _
      have h1 : ∀ f : List α → Ct (List α), (Ct.of c.dec >>= f) s = match c.dec s with
        | .ok (l, r) => (0 + (f l r).1, (f l r).2) | .err e => (0, .err e) | .panic => (0, .panic) := by
        intro f
        have h0 : (Ct.of c.dec) s = (0, c.dec s) := rfl
        rw [Ct.bind_run, h0]
        rcases c.dec s with ⟨_, _⟩ | _ | _ <;> rfl
      have h2 : ∀ (g : Ct (List α)), (Ct.tick 1 >>= fun _ => g) s = (1 + (g s).1, (g s).2) := fun g => rfl
      rw [h2, h1]
      rcases c.dec s with ⟨l, r⟩ | _ | _
      · have : ((do Ct.tick (1 * l.length); pure l : Ct (List α)) r) = (l.length + 0, .ok (l, r)) := by rw [Nat.one_mul]; rfl
        simp only [this]
        simp
      · rfl
      · rfl
    refine ⟨fun s k a r e => ?_, fun s => ?_⟩
    · rw [key] at e
      rcases hm : c.dec s with ⟨l, s1⟩ | _ | _ <;> rw [hm] at e <;> cases e
      have := hd s _ _ hm
      simp only [if_true]
      omega
    · rw [key]
      rcases hm : c.dec s with ⟨l, s1⟩ | _ | _ <;> simp only
      · have := hd s _ _ hm
        omega
      · omega
      · omega
  exact ⟨dec, (Ct.Costs.tick 1).bind fun _ => .of hs hR, (Ct.Costs.tick 1).bind fun _ => .of hsS hR, dec.discard⟩

open Rd.Eats in
theorem numbers (cfg : Cfg) (cap : Nat → Bool) (W w : Nat) (hw : 1 ≤ w) (h8 : 8 ≤ R) (hR : Z ≤ R) :
    (Counted.bulk (bulkC cfg cap W w)).Costs Z R 1 true := by
  refine bulk ?_ ?_ (fun s l r h => ?_) hR
  · exact bind0 (readLen_eats cfg) fun _ => Rd.Eats.ite ((advance _).weaken (Nat.zero_le _)) (fail _ _)
  · exact bind0 (readLen_eats cfg) fun _ => Rd.Eats.ite ((Rd.consume_eats_n _).weaken (Nat.zero_le _)) (fail _ _)
  · obtain ⟨n, s1, h1, h2⟩ := Rd.bind_ok.1 h
    have hb : r.length + l.length + 1 ≤ s.length := by
      have l1 := readLen_eats cfg _ _ _ h1
      split at h2
      · cases h2; simpa using l1
      · split at h2
        · obtain ⟨_, s2, h3, h4⟩ := Rd.bind_ok.1 h2
          obtain ⟨b, s3, h5, h6⟩ := Rd.bind_ok.1 h4
          have l2 := Rd.Eats.alloc _ _ _ _ h3
          have l3 := Rd.Eats.readExact _ _ _ _ h5
          cases h6
          rw [List.length_map, splitN_length]
          have := Nat.mul_le_mul_left n hw
          omega
        · cases h2
    have := Nat.mul_le_mul_left R hb
    rw [Nat.mul_add, Nat.mul_add] at this
    have : 1 * l.length ≤ R * l.length := Nat.mul_le_mul_right _ (by omega)
    omega

open Rd.Eats in
theorem bools (cfg : Cfg) (cap : Nat → Bool) (h8 : 8 ≤ R) (hR : Z ≤ R) :
    (Counted.bulk (boolsC cfg cap)).Costs Z R 1 true := by
  refine bulk ?_ ?_ (fun s l r h => ?_) hR
  · exact bind0 (readLen_eats cfg) fun _ => (advance _).weaken (Nat.zero_le _)
  · exact bind0 (readLen_eats cfg) fun _ => (Rd.consume_eats_n _).weaken (Nat.zero_le _)
  · obtain ⟨n, s1, h1, h2⟩ := Rd.bind_ok.1 h
    have hb : r.length + divCeil8 l.length + 1 ≤ s.length := by
      have l1 := readLen_eats cfg _ _ _ h1
      split at h2
      · cases h2; simpa [divCeil8] using l1
      · obtain ⟨_, s2, h3, h4⟩ := Rd.bind_ok.1 h2
        obtain ⟨b, s3, h5, h6⟩ := Rd.bind_ok.1 h4
        obtain ⟨_, s4, h7, h8⟩ := Rd.bind_ok.1 h6
        have l2 := Rd.Eats.alloc _ _ _ _ h3
        have l3 := Rd.Eats.readExact _ _ _ _ h5
        have l4 := Rd.Eats.alloc _ _ _ _ h7
        cases h8
        have lb : b.length = divCeil8 n := (readExact_split h5).2
        rw [unpackBools_length b n lb.symm]
        omega
    have := Nat.mul_le_mul_left R hb
    rw [Nat.mul_add, Nat.mul_add] at this
    have h3 : 8 * divCeil8 l.length ≤ R * divCeil8 l.length := Nat.mul_le_mul_right _ h8
    have : l.length ≤ 8 * divCeil8 l.length := by unfold divCeil8; omega
    omega

end Counted.Costs

theorem Ty.breadth_pos (t : Ty ι) : 1 ≤ t.breadth := by cases t <;> simp only [Ty.breadth] <;> omega

theorem Ty.breadth_le (t : Ty ι) : t.breadth ≤ t.widest := by
  induction t
  case btreeMap k v ihk ihv | hashMap k v ihk ihv =>
    have := k.breadth_pos
    simp only [Ty.breadth, Ty.widest] at *
    omega
  all_goals
    simp only [Ty.breadth, Ty.widest] at *
    first
      | omega
      | (rename_i t _; have := t.breadth_pos; omega)
      | (rename_i t _ _ _; have := t.breadth_pos; omega)

open Counted.Costs in
theorem countedVec_costs {Z R : Nat} (cfg : Cfg) (E : Env ι) (t : Ty ι) {x : Counted (t.denote E.X)}
    (h : x.Costs Z R t.breadth true) (hn : t.breadth ≤ Z) (hR : 2 * Z ≤ R) (h8 : 8 ≤ R) : (countedVec cfg E t x).Costs Z R 1 true := by
  have key : (Counted.call (.vec cfg (E.cap t) x)).Costs Z R 1 true := call (vec cfg _ h hn (by omega))
  cases t <;> simp only [countedVec] <;> (try split) <;> first
    | exact key
    | exact bools cfg _ h8 (by omega)
    | exact numbers cfg _ _ _ (by decide) h8 (by omega)
    | (rename_i k _; exact numbers cfg _ _ _ (by cases k <;> decide) h8 (by omega))

open Rd.Eats in
theorem Ty.leaf_eats (cfg : Cfg) (E : Env ι) :
    (Ty.bool.codec cfg E).Weighty ∧ (∀ k, ((Ty.int k).codec cfg E).Weighty) ∧ (∀ f, ((Ty.float f).codec cfg E).Weighty) ∧
    (Ty.char.codec cfg E).Weighty ∧ (Ty.string.codec cfg E).Weighty ∧ (Ty.path.codec cfg E).Weighty ∧ (Ty.bytes.codec cfg E).Weighty ∧
    (Ty.uuid.codec cfg E).Weighty ∧ (Ty.duration.codec cfg E).Weighty ∧ (Ty.systemTime.codec cfg E).Weighty ∧
    (∀ f, ((Ty.notNan f).codec cfg E).Weighty) := by
  have f1 : ∀ f : FloatTy, (readLE (8 * f.bytes) f.bytes).Eats 1 := fun f =>
    (readLE_eats _ _).weaken (by cases f <;> simp [FloatTy.bytes])
  have str : (stringC cfg (E.cap (.int .u8))).dec.Eats 1 := bind0 (readBytes_eats _ _) fun _ => lift _
  refine ⟨.mirror ?_, fun k => .mirror (decInt_eats cfg k), fun f => .mirror (f1 f), .mirror ?_, ⟨str, skipBytes_eats1 _, skipBytesS_eats1 _, ?_⟩,
    .mirror (bind0 str fun _ => pure _), ⟨readBytes_eats _ _, skipBytes_eats1 _, skipBytesS_eats1 _, ?_⟩, ⟨?_, ?_, ?_, ?_⟩, .mirror ?_, ⟨?_, ?_, ?_, ?_⟩, fun f => ?_⟩
  · exact bind0 readByte fun _ => Rd.Eats.ite (pure _) (Rd.Eats.ite (pure _) (fail _ _))
  · refine bind0 readByte fun b => Rd.Eats.ite (fail _ _) (bind0 ((readExact _).weaken (Nat.zero_le _)) fun rest => ?_)
    split
    · split
      · exact pure _
      · exact panic _
    · exact fail _ _
  · exact Rd.discard_eats1 str
  · exact Rd.discard_eats1 (readBytes_eats _ _)
  · exact (readLE_eats _ _).weaken (j := 1) (by decide)
  · exact (advance _).weaken (j := 1) (by decide)
  · exact (Rd.consume_eats_n _).weaken (j := 1) (by decide)
  · exact Rd.discard_eats1 ((readLE_eats _ _).weaken (j := 1) (by decide))
  · exact bind0 (decInt_eats cfg _) fun _ => bind0 ((decInt_eats cfg _).weaken (by omega)) fun _ => lift _
  · exact bind0 (decInt_eats cfg _) fun _ => bind0 ((decInt_eats cfg _).weaken (by omega)) fun _ =>
      bind0 (lift _) fun _ => Rd.Eats.ite (pure _) (panic _)
  all_goals try exact bind0 (Rd.discard_eats1 (decInt_eats cfg _)) fun _ => (Rd.discard_eats1 (decInt_eats cfg _)).weaken (by omega)
  have : (notNanC f.bytes).dec.Eats 1 := bind0 (f1 f) fun _ => Rd.Eats.ite (fail _ _) (pure _)
  exact ⟨this, Rd.discard_eats1 (f1 f), Rd.discard_eats1 (f1 f), Rd.discard_eats1 this⟩

theorem Counted.Costs.cast {Z R n n' : Nat} {w w' : Bool} {c : Counted α} (h : c.Costs Z R n w) (hn : n ≤ n') (hw : w' = true → w = true) :
    c.Costs Z R n' w' :=
  ⟨h.dec.weaken hn hw, h.skip.weaken hn hw, h.skipS.weaken hn hw, h.check.weaken hn hw⟩

open Counted.Costs in
/-- The calls for a value of a type are paid for by the bytes, but for the first `width` of them. -/
theorem Ty.counted_costs {Z R : Nat} (cfg : Cfg) (E : Env ι) (x : (i : ι) → Counted (E.X i)) (hx : ∀ i, (x i).Costs Z R 1 true)
    (hR : 2 * Z ≤ R) (h8 : 8 ≤ R) (t : Ty ι) (hs : t.solid = true) (hZ : t.widest ≤ Z) :
    (t.counted cfg E x).Costs Z R t.breadth (!t.weightless) := by
  obtain ⟨b1, b2, b3, b4, b5, b6, b7, b8, b9, b10, b11⟩ := Ty.leaf_eats cfg E
  have zr : Z ≤ R := by omega
  have le : ∀ t : Ty ι, t.widest ≤ Z → t.breadth ≤ Z := fun t h => Nat.le_trans t.breadth_le h
  induction t with
  | unit =>
    have : (Ct.of (pure () : Rd Unit)).Costs Z R 0 false := .of0 (Rd.Eats.pure _)
    exact ⟨(Ct.Costs.tick 1).bind fun _ => this, (Ct.Costs.tick 1).bind fun _ => this.weaken (Nat.le_refl _) id,
      (Ct.Costs.tick 1).bind fun _ => this, (Ct.Costs.tick 1).bind fun _ => this⟩
  | bool => exact leaf b1 zr
  | int k => exact leaf (b2 k) zr
  | float f => exact leaf (b3 f) zr
  | char => exact leaf b4 zr
  | string => exact leaf b5 zr
  | path => exact leaf b6 zr
  | bytes => exact leaf b7 zr
  | uuid => exact leaf b8 zr
  | duration => exact leaf b9 zr
  | systemTime => exact leaf b10 zr
  | notNan f => exact leaf (b11 f) zr
  | option t ih => exact call (Counted.Costs.option cfg (ih hs hZ) (by have := le t hZ; omega))
  | result t e iht ihe =>
    simp only [Ty.solid, Bool.and_eq_true, Ty.widest] at hs hZ
    have := le t (by omega)
    have := le e (by omega)
    exact call (Counted.Costs.result cfg (iht hs.1 (by omega)) (ihe hs.2 (by omega)) (by omega) (by omega))
  | bound t ih => exact call (Counted.Costs.bound cfg (ih hs hZ) (by have := le t hZ; omega))
  | wrap t ih =>
    simp only [Ty.widest] at hZ
    exact call (Counted.Costs.wrap (ih hs (by omega)))
  | pair s t ihs iht =>
    simp only [Ty.solid, Bool.and_eq_true, Ty.widest] at hs hZ
    exact (call (both (ihs hs.1 (by omega)) (iht hs.2 (by omega)))).cast (by simp only [Ty.breadth]; omega)
      (by simp [Ty.weightless])
  | array n t ih =>
    simp only [Ty.solid, Ty.widest] at hs hZ
    exact (call (Counted.Costs.array n (ih hs (by omega)))).cast (Nat.le_refl _)
      (by simp [Ty.weightless])
  | vec t ih =>
    simp only [Ty.solid, Bool.and_eq_true, Ty.widest] at hs hZ
    exact countedVec_costs cfg E t (by have := ih hs.2 hZ; rwa [hs.1] at this) (le t hZ) hR h8
  | btreeMap k v ihk ihv | hashMap k v ihk ihv =>
    simp only [Ty.solid, Bool.and_eq_true, Ty.widest] at hs hZ
    exact call (coll cfg _ _ ((both (ihk hs.1.2 (by omega)) (ihv hs.2 (by omega))).cast (Nat.le_refl _)
      (by simpa [Bool.not_and] using hs.1.1)) (by omega) (by omega))
  | btreeSet t ih | hashSet t ih | binaryHeap t ih | vector t ih =>
    simp only [Ty.solid, Bool.and_eq_true, Ty.widest] at hs hZ
    have := ih hs.2 hZ
    rw [hs.1] at this
    exact call (coll cfg _ _ this (le t hZ) (by have := le t hZ; omega))
  | ext i => exact hx i

end Revision
