import Verif.Spec.Alloc
import Verif.Proofs.Ty
import Verif.Proofs.DerivePanic

/-! Helper lemmas: how much memory reading requests. -/

namespace Revision

/-- `m` takes at least `k` bytes. -/
def Rd.Eats (k : Nat) (m : Rd α) : Prop := ∀ s a r, m s = .ok (a, r) → r.length + k ≤ s.length

namespace Rd.Eats

theorem weaken {m : Rd α} {j k : Nat} (h : Eats k m) (hj : j ≤ k) : Eats j m :=
  fun s a r e => by have := h s a r e; omega

theorem pure (a : α) : Eats 0 (Pure.pure a : Rd α) := by
  intro s b r h; cases h; simp

theorem fail (e : Err) (k : Nat) : Eats k (Rd.fail e : Rd α) := by
  intro s b r h; cases h

theorem panic (k : Nat) : Eats k (Rd.panic : Rd α) := by
  intro s b r h; cases h

theorem lift (x : Res α) : Eats 0 (Rd.lift x) := by
  intro s b r h
  have := lift_run_ok.1 h
  rw [this.2]; simp

theorem alloc (b : Bool) : Eats 0 (Rd.alloc b) := by
  cases b
  · exact panic 0
  · exact pure ()

theorem bind {m : Rd α} {f : α → Rd β} {j k : Nat} (h : Eats j m) (hf : ∀ a, Eats k (f a)) :
    Eats (j + k) (m >>= f) := by
  intro s b r e
  obtain ⟨a, s1, h1, h2⟩ := Rd.bind_ok.1 e
  have := h _ _ _ h1
  have := hf _ _ _ _ h2
  omega

theorem bind0 {m : Rd α} {f : α → Rd β} {k : Nat} (h : Eats k m) (hf : ∀ a, Eats 0 (f a)) :
    Eats k (m >>= f) := bind h hf

theorem ite {c : Prop} [Decidable c] {m n : Rd α} {k : Nat} (h : Eats k m) (h' : Eats k n) :
    Eats k (if c then m else n) := by
  split <;> assumption

theorem mapErr {m : Rd α} {f : Err → Err} {k : Nat} (h : Eats k m) : Eats k (m.mapErr f) := by
  intro s b r e
  simp only [Rd.mapErr] at e
  cases hm : m s with
  | ok p => rw [hm] at e; cases e; exact h _ _ _ hm
  | err e' => rw [hm] at e; cases e
  | panic => rw [hm] at e; cases e

theorem readByte : Eats 1 Rd.readByte := by
  intro s b r h
  cases s with
  | nil => cases h
  | cons x s => cases h; simp

theorem readExact (n : Nat) : Eats n (Rd.readExact n) := by
  intro s b r h
  simp only [Rd.readExact] at h
  split at h
  · cases h; simp; omega
  · cases h

theorem advance (n : Nat) : Eats n (Rd.advance n) := by
  intro s b r h
  simp only [Rd.advance] at h
  split at h
  · cases h; simp; omega
  · cases h

theorem readN {m : Rd α} {k : Nat} (h : Eats k m) : ∀ n, Eats (n * k) (Rd.readN n m)
  | 0 => by rw [Nat.zero_mul]; exact pure _
  | n + 1 => by
    have := bind h fun a => bind0 (readN h n) fun as => pure (a :: as)
    rw [show (n + 1) * k = k + n * k by rw [Nat.succ_mul, Nat.add_comm]]
    exact this

end Rd.Eats

open Rd.Eats in
theorem readLE_eats (w n : Nat) : (readLE w n).Eats n := bind0 (readExact n) fun _ => pure _

open Rd.Eats in
theorem decodeU64_eats : decodeU64.Eats 1 :=
  bind readByte fun _ => ite ((readLE_eats _ _).weaken (by omega)) (ite ((readLE_eats _ _).weaken (by omega))
    (ite ((readLE_eats _ _).weaken (by omega)) (ite (fail _ _) (ite (fail _ _) (pure _)))))

open Rd.Eats in
theorem decodeU128_eats : decodeU128.Eats 1 :=
  bind readByte fun _ => ite ((readLE_eats _ _).weaken (by omega)) (ite ((readLE_eats _ _).weaken (by omega))
    (ite ((readLE_eats _ _).weaken (by omega)) (ite ((readLE_eats _ _).weaken (by omega)) (ite (fail _ _) (pure _)))))

open Rd.Eats in
theorem decInt_eats (cfg : Cfg) (k : IntTy) : (decInt cfg k).Eats 1 := by
  have hl : ∀ w n, (readLE w (n + 1)).Eats 1 := fun w n => (readLE_eats w _).weaken (by omega)
  cases k <;> simp only [decInt]
  case u8 | i8 => exact hl _ _
  case u16 | u32 => exact ite (hl _ _) (bind0 decodeU64_eats fun _ => lift _)
  case u64 | usize => exact ite (hl _ _) decodeU64_eats
  case u128 => exact ite (hl _ _) decodeU128_eats
  case i16 | i32 => exact ite (bind0 (hl _ _) fun _ => pure _) (bind0 decodeU64_eats fun _ => lift _)
  case i64 | isize => split <;> exact bind0 (by first | exact hl _ _ | exact decodeU64_eats) fun _ => pure _
  case i128 => split <;> exact bind0 (by first | exact hl _ _ | exact decodeU128_eats) fun _ => pure _

theorem readLen_eats (cfg : Cfg) : (readLen cfg).Eats 1 := (decInt_eats cfg _).bind0 fun _ => Rd.Eats.pure _
theorem readU32_eats (cfg : Cfg) : (readU32 cfg).Eats 1 := (decInt_eats cfg _).bind0 fun _ => Rd.Eats.pure _
theorem readU16_eats (cfg : Cfg) : (readU16 cfg).Eats 1 := (decInt_eats cfg _).bind0 fun _ => Rd.Eats.pure _

/-! ### The relation between a limited and an unlimited allocator -/

/-- On inputs of at most `L` bytes `m` panics or does what `n` does; `n` does not give back more bytes than it
got; and if `G` holds `m` succeeds wherever `n` does. -/
def Rd.Upto (G : Prop) (L : Nat) (m n : Rd α) : Prop :=
  ∀ s, s.length ≤ L → (m s = .panic ∨ m s = n s) ∧ (∀ a r, n s = .ok (a, r) → r.length ≤ s.length) ∧
    (G → ∀ a r, n s = .ok (a, r) → m s = .ok (a, r))

namespace Rd.Upto

variable {G : Prop} {L : Nat}

theorem refl {m : Rd α} (h : m.Eats 0) : Upto G L m m :=
  fun s _ => ⟨.inr rfl, fun a r e => h s a r e, fun _ _ _ e => e⟩

theorem bind' {m n : Rd α} {f g : α → Rd β} (h : Upto G L m n)
    (hf : ∀ s a r, s.length ≤ L → n s = .ok (a, r) → Upto G L (f a) (g a)) :
    Upto G L (m >>= f) (n >>= g) := by
  intro s hs
  obtain ⟨h1, h2, h3⟩ := h s hs
  refine ⟨?_, ?_, ?_⟩
  · rcases h1 with h1 | h1
    · exact .inl (Rd.bind_of_panic h1)
    · simp only [Rd.bind_run, h1]
      cases hn : n s with
      | ok p =>
        have := h2 p.1 p.2 hn
        exact (hf s p.1 p.2 hs hn p.2 (by omega)).1
      | err e => exact .inr rfl
      | panic => exact .inr rfl
  · intro b r e
    obtain ⟨a, s1, e1, e2⟩ := Rd.bind_ok.1 e
    have := h2 _ _ e1
    have := (hf s a s1 hs e1 s1 (by omega)).2.1 _ _ e2
    omega
  · intro hG b r e
    obtain ⟨a, s1, e1, e2⟩ := Rd.bind_ok.1 e
    have := h2 _ _ e1
    exact Rd.bind_ok.2 ⟨a, s1, h3 hG _ _ e1, (hf s a s1 hs e1 s1 (by omega)).2.2 hG _ _ e2⟩

theorem bind {m n : Rd α} {f g : α → Rd β} (h : Upto G L m n) (hf : ∀ a, Upto G L (f a) (g a)) :
    Upto G L (m >>= f) (n >>= g) := bind' h fun _ a _ _ _ => hf a

theorem ite {c : Prop} [Decidable c] {m n m' n' : Rd α} (h : Upto G L m m') (h' : Upto G L n n') :
    Upto G L (if c then m else n) (if c then m' else n') := by
  split <;> assumption

theorem mapErr {m n : Rd α} {f} (h : Upto G L m n) : Upto G L (m.mapErr f) (n.mapErr f) := by
  have key : ∀ a s r, (n.mapErr f) s = .ok (a, r) → n s = .ok (a, r) := by
    intro a s r e
    simp only [Rd.mapErr] at e
    cases hn : n s with
    | ok p => rw [hn] at e; exact e
    | err e' => rw [hn] at e; cases e
    | panic => rw [hn] at e; cases e
  intro s hs
  obtain ⟨h1, h2, h3⟩ := h s hs
  refine ⟨?_, fun a r e => h2 _ _ (key _ _ _ e), fun hG a r e => ?_⟩
  · simp only [Rd.mapErr]
    rcases h1 with h1 | h1
    · left; rw [h1]; rfl
    · right; rw [h1]
  · simp only [Rd.mapErr, h3 hG _ _ (key _ _ _ e)]; rfl

theorem readN {m n : Rd α} (h : Upto G L m n) : ∀ k, Upto G L (Rd.readN k m) (Rd.readN k n)
  | 0 => refl (Rd.Eats.pure _)
  | k + 1 => bind h fun _ => bind (readN h k) fun _ => refl (Rd.Eats.pure _)

/-- A request made before reading: granted whenever the reading can succeed. -/
theorem alloc {b : Bool} {m n : Rd α} (h : Upto G L m n)
    (hb : G → ∀ s a r, s.length ≤ L → n s = .ok (a, r) → b = true) :
    Upto G L (Rd.alloc b >>= fun _ => m) (Rd.alloc true >>= fun _ => n) := by
  intro s hs
  obtain ⟨h1, h2, h3⟩ := h s hs
  cases b with
  | true => exact h s hs
  | false =>
    exact ⟨.inl rfl, h2, fun hG a r e => absurd (hb hG s a r hs e) (by simp)⟩

end Rd.Upto

/-! ### Readers of the standard types -/

section
open Rd.Upto
variable {G : Prop} {L : Nat}

theorem readBytes_upto {cfg : Cfg} {cap : Nat → Bool} (hc : G → ∀ n, n ≤ L → cap n = true) :
    (readBytes cfg cap).Upto G L (readBytes cfg (fun _ => true)) :=
  bind (refl ((readLen_eats cfg).weaken (by omega))) fun n =>
    ite (refl (Rd.Eats.pure _)) (alloc (refl ((Rd.Eats.readExact n).weaken (by omega))) fun hG s a r hs e =>
      hc hG n (by have := Rd.Eats.readExact n _ _ _ e; omega))

theorem vecC_upto {cfg : Cfg} {cap : Nat → Bool} {c c' : Codec α} (h : c.dec.Upto G L c'.dec)
    (hw : G → c'.dec.Eats 1) (hc : G → ∀ n, n ≤ L → cap n = true) :
    (vecC cfg cap c).dec.Upto G L (vecC cfg (fun _ => true) c').dec :=
  bind (refl ((readLen_eats cfg).weaken (by omega))) fun n =>
    ite (refl (Rd.Eats.pure _)) (alloc (readN h n) fun hG s a r hs e =>
      hc hG n (by have := Rd.Eats.readN (hw hG) n _ _ _ e; omega))

theorem bulkC_upto {cfg : Cfg} {cap : Nat → Bool} {W w : Nat} (hw : 1 ≤ w)
    (hc : G → ∀ n, n ≤ L → cap n = true) :
    (bulkC cfg cap W w).dec.Upto G L (bulkC cfg (fun _ => true) W w).dec :=
  bind (refl ((readLen_eats cfg).weaken (by omega))) fun n =>
    ite (refl (Rd.Eats.pure _)) (ite (alloc (refl (((Rd.Eats.readExact (n * w)).bind0 fun _ =>
      Rd.Eats.pure _).weaken (by omega))) fun hG s a r hs e =>
        hc hG n (by
          obtain ⟨b, s1, e1, e2⟩ := Rd.bind_ok.1 e
          have := Rd.Eats.readExact _ _ _ _ e1
          have : n * 1 ≤ n * w := Nat.mul_le_mul_left n hw
          omega)) (refl (Rd.Eats.fail _ _)))

theorem boolsC_upto {cfg : Cfg} {cap : Nat → Bool} (hc : G → ∀ n, n ≤ 8 * L → cap n = true) :
    (boolsC cfg cap).dec.Upto G L (boolsC cfg (fun _ => true)).dec := by
  refine bind (refl ((readLen_eats cfg).weaken (by omega))) fun n =>
    ite (refl (Rd.Eats.pure _)) (alloc (bind' (refl ((Rd.Eats.readExact _).weaken (by omega)))
      fun s b r hs e => alloc (refl (Rd.Eats.pure _)) fun hG _ _ _ _ _ => ?_) fun hG s a r hs e => ?_)
  · refine hc hG n ?_
    have := Rd.Eats.readExact _ _ _ _ e
    unfold divCeil8 at this
    omega
  · refine hc hG _ ?_
    obtain ⟨b, s1, e1, e2⟩ := Rd.bind_ok.1 e
    have := Rd.Eats.readExact _ _ _ _ e1
    omega

theorem collC_upto {cfg : Cfg} {cap : Nat → Bool} {c c' : Codec α} {inv build} (h : c.dec.Upto G L c'.dec)
    (hw : G → c'.dec.Eats 1) (hc : G → ∀ n, n ≤ L → cap n = true) :
    (collC cfg cap c inv build).dec.Upto G L (collC cfg (fun _ => true) c' inv build).dec :=
  bind (refl ((readLen_eats cfg).weaken (by omega))) fun n =>
    alloc (bind (readN h n) fun _ => refl (Rd.Eats.pure _)) fun hG s a r hs e =>
      hc hG n (by
        obtain ⟨b, s1, e1, e2⟩ := Rd.bind_ok.1 e
        have := Rd.Eats.readN (hw hG) n _ _ _ e1
        omega)

theorem pairC_upto {a a' : Codec α} {b b' : Codec β} (h1 : a.dec.Upto G L a'.dec) (h2 : b.dec.Upto G L b'.dec) :
    (pairC a b).dec.Upto G L (pairC a' b').dec :=
  bind h1 fun _ => bind h2 fun _ => refl (Rd.Eats.pure _)

end

/-! ### The supported types -/

section
variable {ι : Type}

/-- `E` with other impls for the further types and an allocator that never refuses. -/
def Env.unlimitedWith (E : Env ι) (c : (i : ι) → Codec (E.X i)) : Env ι :=
  ⟨E.X, c, fun _ _ => true, E.cmp, E.eq⟩

open Rd.Eats in
theorem vecOf_eats (cfg : Cfg) (E : Env ι) (t : Ty ι) {c : Codec (t.denote E.X)} (h : c.dec.Eats 0) :
    (vecOf cfg E t c).dec.Eats 1 := by
  have key : (vecC cfg (E.cap t) c).dec.Eats 1 :=
    bind0 (readLen_eats cfg) fun n => ite (pure _) (bind0 (alloc _) fun _ => (readN h n).weaken (by omega))
  have bulk : ∀ W w, (bulkC cfg (E.cap t) W w).dec.Eats 1 := fun W w =>
    bind0 (readLen_eats cfg) fun n => ite (pure _) (ite (bind0 (alloc _) fun _ =>
      (bind0 (readExact _) fun _ => pure _).weaken (by omega)) (fail _ _))
  cases t <;> simp only [vecOf] <;> try exact key
  case bool =>
    split
    · exact bind0 (readLen_eats cfg) fun n => ite (pure _) (bind0 (alloc _) fun _ =>
        (bind0 (readExact _) fun _ => bind0 (alloc _) fun _ => pure _).weaken (by omega))
    · exact key
  case int k =>
    split
    · exact bulk _ _
    · exact key
  case float f =>
    split
    · exact bulk _ _
    · exact key
  case uuid =>
    split
    · exact bulk _ _
    · exact key

open Rd.Eats in
theorem readBytes_eats (cfg : Cfg) (cap : Nat → Bool) : (readBytes cfg cap).Eats 1 :=
  bind0 (readLen_eats cfg) fun n => ite (pure _) (bind0 (alloc _) fun _ => (readExact n).weaken (by omega))

open Rd.Eats in
theorem collC_eats (cfg : Cfg) (cap : Nat → Bool) {c : Codec α} {inv build} (h : c.dec.Eats 0) :
    (collC cfg cap c inv build).dec.Eats 1 :=
  bind0 (readLen_eats cfg) fun n => bind0 (alloc _) fun _ =>
    (bind0 (readN h n) fun _ => pure _).weaken (by omega)

open Rd.Eats in
/-- Every type takes its bytes: none if it is weightless, at least one otherwise. -/
theorem Ty.codec_eats (cfg : Cfg) (E : Env ι) (hx : ∀ i, (E.extC i).dec.Eats 1) (t : Ty ι) :
    (t.codec cfg E).dec.Eats (if t.weightless then 0 else 1) := by
  have zero : ∀ {α : Type} {m : Rd α} {b : Bool}, m.Eats (if b then 0 else 1) → m.Eats 0 :=
    fun h => h.weaken (by omega)
  induction t with
  | unit => exact pure _
  | bool => exact bind0 readByte fun _ => ite (pure _) (ite (pure _) (fail _ _))
  | int k => exact decInt_eats cfg k
  | float f => exact (readLE_eats _ _).weaken (by cases f <;> simp [FloatTy.bytes, Ty.weightless])
  | char =>
    refine bind0 readByte fun b => ite (fail _ _) (bind0 ((readExact _).weaken (Nat.zero_le _)) fun rest => ?_)
    split
    · split
      · exact pure _
      · exact panic _
    · exact fail _ _
  | string => exact bind0 (readBytes_eats _ _) fun _ => lift _
  | path => exact bind0 (bind0 (readBytes_eats _ _) fun _ => lift _) fun _ => pure _
  | bytes => exact readBytes_eats _ _
  | uuid => exact (readLE_eats _ _).weaken (by simp [Ty.weightless])
  | duration => exact bind0 (decInt_eats cfg _) fun _ => bind0 ((decInt_eats cfg _).weaken (by omega)) fun _ => lift _
  | systemTime =>
    exact bind0 (decInt_eats cfg _) fun _ => bind0 ((decInt_eats cfg _).weaken (by omega)) fun _ =>
      bind0 (lift _) fun _ => ite (pure _) (panic _)
  | notNan f =>
    exact bind0 ((readLE_eats _ _).weaken (by cases f <;> simp [FloatTy.bytes, Ty.weightless])) fun _ =>
      ite (fail _ _) (pure _)
  | option t ih => 
    exact bind0 (decInt_eats cfg _) fun _ => ite (pure _) (ite (bind0 (zero ih) fun _ => pure _) (fail _ _))
  | result t e iht ihe =>
    exact bind0 (readU32_eats cfg) fun _ => ite (bind0 (zero iht).mapErr fun _ => pure _)
      (ite (bind0 (zero ihe).mapErr fun _ => pure _) (fail _ _))
  | bound t ih =>
    exact bind0 (readU32_eats cfg) fun _ => ite (pure _) (ite (bind0 (zero ih).mapErr fun _ => pure _)
      (ite (bind0 (zero ih).mapErr fun _ => pure _) (fail _ _)))
  | wrap t ih => exact ih
  | pair s t ihs iht =>
    have h := Rd.Eats.bind ihs fun a => Rd.Eats.bind0 iht fun b => Rd.Eats.pure (a, b)
    refine h.weaken ?_
    simp only [Ty.weightless, Bool.and_eq_true]
    split <;> split <;> split <;> simp_all
  | array n t ih =>
    refine (Rd.Eats.readN ih n).weaken ?_
    simp only [Ty.weightless, Bool.or_eq_true, beq_iff_eq]
    split <;> split <;> simp_all
    omega
  | vec t ih => exact vecOf_eats cfg E t (zero ih)
  | btreeMap k v ihk ihv => exact collC_eats cfg _ (bind0 (zero ihk) fun _ => bind0 (zero ihv) fun _ => pure _)
  | btreeSet k ih => exact collC_eats cfg _ (zero ih)
  | hashMap k v ihk ihv => exact collC_eats cfg _ (bind0 (zero ihk) fun _ => bind0 (zero ihv) fun _ => pure _)
  | hashSet k ih => exact collC_eats cfg _ (zero ih)
  | binaryHeap t ih => exact collC_eats cfg _ (zero ih)
  | vector t ih => exact collC_eats cfg _ (zero ih)
  | ext i => exact hx i

variable {G : Prop} {L : Nat} {E : Env ι} {c' : (i : ι) → Codec (E.X i)}

open Rd.Upto

theorem vecOf_upto (cfg : Cfg) (hG : G → GrantsFor E.cap L) (t : Ty ι) {c d : Codec (t.denote E.X)}
    (h : c.dec.Upto G L d.dec) (hw : G → d.dec.Eats 1) :
    (vecOf cfg E t c).dec.Upto G L (vecOf cfg (E.unlimitedWith c') t d).dec := by
  have cap : ∀ t : Ty ι, G → ∀ n, n ≤ L → E.cap t n = true := fun t g n hn => hG g t n (by
    cases t <;> simp only [Ty.perByte] <;> omega)
  have key : (vecC cfg (E.cap t) c).dec.Upto G L (vecC cfg (fun _ => true) d).dec := vecC_upto h hw (cap t)
  cases t <;> simp only [vecOf] <;> try exact key
  case bool =>
    split
    · exact boolsC_upto fun g n hn => hG g .bool n hn
    · exact key
  case int k =>
    split
    · exact bulkC_upto (by cases k <;> simp [IntTy.bits]) (cap _)
    · exact key
  case float f =>
    split
    · exact bulkC_upto (by cases f <;> simp [FloatTy.bytes]) (cap _)
    · exact key
  case uuid =>
    split
    · exact bulkC_upto (by omega) (cap _)
    · exact key

theorem Ty.codec_upto (cfg : Cfg) (hG : G → GrantsFor E.cap L) (hx : ∀ i, (E.extC i).dec.Upto G L (c' i).dec)
    (hw : ∀ i, (c' i).dec.Eats 1) (t : Ty ι) (ht : G → t.solid = true) :
    (t.codec cfg E).dec.Upto G L (t.codec cfg (E.unlimitedWith c')).dec := by
  have cap : ∀ t : Ty ι, G → ∀ n, n ≤ L → E.cap t n = true := fun t g n hn => hG g t n (by
    cases t <;> simp only [Ty.perByte] <;> omega)
  have eats := Ty.codec_eats cfg (E.unlimitedWith c') hw
  have self : ∀ t : Ty ι, (t.codec cfg (E.unlimitedWith c')).dec.Upto G L (t.codec cfg (E.unlimitedWith c')).dec :=
    fun t => refl ((eats t).weaken (by omega))
  have one : ∀ t : Ty ι, t.weightless = false → (t.codec cfg (E.unlimitedWith c')).dec.Eats 1 := fun t h => by
    have := eats t
    simpa [h] using this
  induction t with
  | unit => exact self .unit
  | bool => exact self .bool
  | int k => exact self (.int k)
  | float f => exact self (.float f)
  | char => exact self .char
  | uuid => exact self .uuid
  | duration => exact self .duration
  | systemTime => exact self .systemTime
  | notNan f => exact self (.notNan f)
  | string => exact bind (readBytes_upto (cap _)) fun _ => refl (Rd.Eats.lift _)
  | path => exact bind (bind (readBytes_upto (cap _)) fun _ => refl (Rd.Eats.lift _)) fun _ => refl (Rd.Eats.pure _)
  | bytes => exact readBytes_upto (cap _)
  | option t ih =>
    exact bind (refl ((decInt_eats cfg _).weaken (by omega))) fun _ => ite (refl (Rd.Eats.pure _))
      (ite (bind (ih ht) fun _ => refl (Rd.Eats.pure _)) (refl (Rd.Eats.fail _ _)))
  | result t e iht ihe =>
    simp only [Ty.solid, Bool.and_eq_true] at ht
    exact bind (refl ((readU32_eats cfg).weaken (by omega))) fun _ =>
      ite (bind (iht fun g => (ht g).1).mapErr fun _ => refl (Rd.Eats.pure _))
        (ite (bind (ihe fun g => (ht g).2).mapErr fun _ => refl (Rd.Eats.pure _)) (refl (Rd.Eats.fail _ _)))
  | bound t ih =>
    exact bind (refl ((readU32_eats cfg).weaken (by omega))) fun _ => ite (refl (Rd.Eats.pure _))
      (ite (bind (ih ht).mapErr fun _ => refl (Rd.Eats.pure _))
        (ite (bind (ih ht).mapErr fun _ => refl (Rd.Eats.pure _)) (refl (Rd.Eats.fail _ _))))
  | wrap t ih => exact ih ht
  | pair s t ihs iht =>
    simp only [Ty.solid, Bool.and_eq_true] at ht
    exact pairC_upto (ihs fun g => (ht g).1) (iht fun g => (ht g).2)
  | array n t ih => exact readN (ih ht) n
  | vec t ih =>
    simp only [Ty.solid, Bool.and_eq_true, Bool.not_eq_true'] at ht
    exact vecOf_upto cfg hG t (ih fun g => (ht g).2) fun g => one t (ht g).1
  | btreeMap k v ihk ihv =>
    simp only [Ty.solid, Bool.and_eq_true, Bool.not_eq_true'] at ht
    exact collC_upto (pairC_upto (ihk fun g => (ht g).1.2) (ihv fun g => (ht g).2))
      (fun g => one (.pair k v) (ht g).1.1) (cap _)
  | hashMap k v ihk ihv =>
    simp only [Ty.solid, Bool.and_eq_true, Bool.not_eq_true'] at ht
    exact collC_upto (pairC_upto (ihk fun g => (ht g).1.2) (ihv fun g => (ht g).2))
      (fun g => one (.pair k v) (ht g).1.1) (cap _)
  | btreeSet t ih | hashSet t ih | binaryHeap t ih | vector t ih =>
    simp only [Ty.solid, Bool.and_eq_true, Bool.not_eq_true'] at ht
    exact collC_upto (ih fun g => (ht g).2) (fun g => one t (ht g).1) (cap _)
  | ext i => exact hx i

end

end Revision
