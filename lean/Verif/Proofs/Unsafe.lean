import Verif.Spec.Unsafe
import Verif.Proofs.Std2
import Verif.Proofs.StreamErr

/-! # Lemmas on the code with `unsafe` blocks -/

namespace Revision.Unsafe

variable {σ α β γ ι : Type}

/-- What holds of the value of every run that returns one; no run is undefined. -/
def Post (m : Run σ α) (P : α → Prop) : Prop :=
  ∀ s, (∀ a, (m.run s).1 = .ok a → P a) ∧ (m.run s).1 ≠ .ub

theorem Post.safe {m : Run σ α} {P} (h : Post m P) : m.Safe := fun s => (h s).2

theorem Run.Safe.post {m : Run σ α} (h : m.Safe) : Post m fun _ => True := fun s => ⟨fun _ _ => trivial, h s⟩

theorem post_pure {a : α} {P : α → Prop} (h : P a) : Post (pure a : Run σ α) P := by
  intro s
  refine ⟨fun b hb => ?_, nofun⟩
  injection hb with hb; subst hb; exact h

theorem post_bind {m : Run σ α} {f : α → Run σ β} {P : α → Prop} {Q : β → Prop} (hm : Post m P)
    (hf : ∀ a, P a → Post (f a) Q) : Post (m >>= f) Q := by
  intro s
  have hs := hm s
  show (∀ a, ((Bind.bind m f : Run σ β).run s).1 = .ok a → Q a) ∧ _
  have e : (Bind.bind m f : Run σ β).run s = match m.run s with
    | (.ok a, s) => (f a).run s
    | (.err e, s) => (.err e, s)
    | (.panic, s) => (.panic, s)
    | (.ub, s) => (.ub, s) := rfl
  rw [e]
  revert hs
  rcases m.run s with ⟨o, s'⟩
  cases o with
  | ok a => intro hs; exact hf a (hs.1 a rfl) s'
  | err e => intro _; exact ⟨nofun, nofun⟩
  | panic => intro _; exact ⟨nofun, nofun⟩
  | ub => intro hs; exact absurd rfl hs.2

theorem post_requires {c : Bool} (h : c = true) : Post (requires c : Run σ Unit) fun _ => True := by
  intro s; subst h; exact ⟨fun _ _ => trivial, nofun⟩

theorem post_fail {e : Err} {P : α → Prop} : Post (fail e : Run σ α) P := fun _ => ⟨nofun, nofun⟩

theorem post_panic {P : α → Prop} : Post (⟨fun s => (.panic, s)⟩ : Run σ α) P := fun _ => ⟨nofun, nofun⟩

theorem post_withCapacity (H : Heap) (size n : Nat) :
    Post (withCapacity H size n : Run σ (Block α)) fun v => v.elems = [] ∧ n ≤ v.cap := by
  intro s
  unfold withCapacity
  simp only
  split
  · refine ⟨fun a ha => ?_, nofun⟩
    injection ha with ha; subst ha; exact ⟨rfl, H.enough n⟩
  · exact ⟨nofun, nofun⟩

theorem post_filled (H : Heap) (size n : Nat) (a : α) :
    Post (filled H size n a : Run σ (Block α)) fun v => v.elems = List.replicate n a ∧ n * size < 2 ^ 63 := by
  intro s
  unfold filled
  simp only
  split
  · rename_i h
    rw [Bool.and_eq_true] at h
    refine ⟨fun a ha => ?_, nofun⟩
    injection ha with ha; subst ha; exact ⟨rfl, of_decide_eq_true h.2⟩
  · exact ⟨nofun, nofun⟩

theorem post_readExact (S : Source σ) (buf : Bytes) : Post (S.readExact buf) fun b => b.length = buf.length := by
  intro s
  refine ⟨fun a ha => ?_, S.exact_safe buf s⟩
  exact S.exact_length buf s a _ (Prod.ext ha rfl)

theorem post_pushLoop {dec : Run σ α} (hd : dec.Safe) : ∀ (n : Nat) (v : Block α), v.elems.length + n ≤ v.cap →
    Post (pushLoop dec n v) fun _ => True
  | 0, _, _ => post_pure trivial
  | n + 1, v, h => by
    unfold pushLoop
    refine post_bind hd.post fun a _ => post_bind (post_requires (by simp; omega)) fun _ _ => ?_
    refine post_pushLoop hd n (v.push a) ?_
    simp only [Block.push, List.length_append, List.length_singleton]
    omega

theorem post_decElems {H : Heap} {size : Nat} {len : Run σ Nat} {dec : Run σ α} (hl : len.Safe) (hd : dec.Safe) :
    Post (decElems H size len dec) fun _ => True := by
  unfold decElems
  refine post_bind hl.post fun n _ => ?_
  split
  · exact post_pure trivial
  · exact post_bind (post_withCapacity H size n) fun v hv => post_pushLoop hd n v (by rw [hv.1]; simpa using hv.2)

theorem post_decColl {H : Heap} {size : Nat} {len : Run σ Nat} {dec : Run σ α} (build : List α → β) (hl : len.Safe)
    (hd : dec.Safe) : Post (decColl H size len dec build) fun _ => True := by
  unfold decColl
  refine post_bind hl.post fun n _ => post_bind (post_withCapacity H size n) fun v hv => ?_
  exact post_bind (post_pushLoop hd n v (by rw [hv.1]; simpa using hv.2)) fun _ _ => post_pure trivial

/-- Every pattern of `size` bytes is a value, and values take `size` bytes. -/
structure Layout.AnyBits (T : Layout α) : Prop where
  value : ∀ b, b.length = T.size → (T.value b).isSome = true
  bytes : ∀ a, (T.bytes a).length = T.size

theorem valuesOf_some (T : Layout α) : ∀ (bs : List Bytes), (∀ b ∈ bs, (T.value b).isSome = true) →
    ∃ l, valuesOf T bs = some l ∧ l.length = bs.length
  | [], _ => ⟨[], rfl, rfl⟩
  | b :: bs, h => by
    obtain ⟨a, ha⟩ := Option.isSome_iff_exists.1 (h b (by simp))
    obtain ⟨l, h1, h2⟩ := valuesOf_some T bs fun b hb => h b (by simp [hb])
    exact ⟨a :: l, by simp only [valuesOf, ha, h1], by simp [h2]⟩

theorem memory_length {T : Layout α} (hT : T.AnyBits) (v : Block α) : (v.memory T).length = v.elems.length * T.size := by
  unfold Block.memory
  induction v.elems with
  | nil => simp
  | cons a l ih => rw [List.flatMap_cons, List.length_append, ih, hT.bytes, List.length_cons, Nat.succ_mul]; omega

theorem splitN_sizes (w : Nat) : ∀ (n : Nat) (b : Bytes), b.length = n * w → ∀ e ∈ splitN w n b, e.length = w
  | 0, _, _ => by simp [splitN]
  | n + 1, b, h => by
    intro e he
    simp only [splitN, List.mem_cons] at he
    rw [Nat.succ_mul] at h
    rcases he with rfl | he
    · rw [List.length_take]; omega
    · exact splitN_sizes w n _ (by rw [List.length_drop]; omega) e he

theorem post_store {T : Layout α} (hT : T.AnyBits) (v : Block α) (b : Bytes) (hb : b.length ≤ v.elems.length * T.size) :
    Post (store T v b : Run σ (Block α)) fun _ => True := by
  have hm := memory_length hT v
  have hlen : (b ++ (v.memory T).drop b.length).length = v.elems.length * T.size := by
    rw [List.length_append, List.length_drop]; omega
  obtain ⟨l, h1, h2⟩ := valuesOf_some T (splitN T.size v.elems.length (b ++ (v.memory T).drop b.length))
    fun e he => hT.value e (splitN_sizes _ _ _ hlen e he)
  rw [splitN_length] at h2
  unfold store
  rw [h1]
  simp only
  rw [dif_pos (by rw [h2]; exact v.fits)]
  exact post_pure trivial

theorem post_asBytes {T : Layout α} (v : Block α) (n : Nat) (h : n ≤ (v.memory T).length) (h63 : n < 2 ^ 63) :
    Post (asBytes T v n : Run σ Bytes) fun b => b = (v.memory T).take n := by
  unfold asBytes
  exact post_bind (post_requires (by simp only [Bool.and_eq_true, decide_eq_true_eq]; exact ⟨h, h63⟩)) fun _ _ => post_pure rfl

theorem post_decRaw {H : Heap} {T : Layout α} (hT : T.AnyBits) (a : α) (S : Source σ) {len : Run σ Nat} (hl : len.Safe) :
    Post (decRaw H T a S len) fun _ => True := by
  unfold decRaw
  refine post_bind hl.post fun n _ => ?_
  split
  · exact post_pure trivial
  · split
    · refine post_bind (post_filled H T.size n a) fun v hv => ?_
      have hm := memory_length hT v
      rw [hv.1, List.length_replicate] at hm
      refine post_bind (post_asBytes v (n * T.size) (by omega) hv.2) fun buf hbuf => ?_
      refine post_bind (post_readExact S buf) fun b hb => post_store hT v b ?_
      rw [hb, hbuf, List.length_take, hv.1, List.length_replicate]
      omega
    · exact post_fail

theorem numL_anyBits (little : Bool) (W w : Nat) : (numL little W w).AnyBits where
  value := fun _ _ => rfl
  bytes := by
    intro a
    unfold numL
    cases little <;> simp

theorem post_decEach {H : Heap} {W w : Nat} (S : Source σ) {len : Run σ Nat} (hl : len.Safe) :
    Post (decEach H W w S len) fun _ => True :=
  post_decElems hl (Post.safe (post_bind (post_readExact S _) fun _ _ => post_pure (P := fun _ => True) trivial))

theorem post_readToEnd (S : Source σ) (n : Nat) (v : Block (BitVec 8)) : Post (S.readToEnd n v) fun _ => True :=
  fun s => ⟨fun _ _ => trivial, S.end_safe n v s⟩

theorem post_decU8 {H : Heap} (S : Source σ) {len : Run σ Nat} (hl : len.Safe) : Post (decU8 H S len) fun _ => True := by
  unfold decU8
  refine post_bind hl.post fun n _ => ?_
  split
  · exact post_pure trivial
  · refine post_bind (post_withCapacity H 1 n) fun v _ => post_bind (post_readToEnd S n v) fun p _ => ?_
    simp only
    split
    · exact post_fail
    · exact post_pure trivial

theorem post_fromRawParts {T : Layout α} {U : Layout β} (hT : T.AnyBits) (hU : U.AnyBits) (hs : T.size = U.size)
    (ha : T.align = U.align) (v : Block α) :
    Post (fromRawParts T U v v.elems.length v.cap : Run σ (Block β)) fun _ => True := by
  unfold fromRawParts
  refine post_bind (post_requires (by simp [hs, ha])) fun _ _ => ?_
  obtain ⟨l, h1, h2⟩ := valuesOf_some U ((v.elems.take v.elems.length).map T.bytes) (by
    intro b hb
    obtain ⟨a, _, rfl⟩ := List.mem_map.1 hb
    exact hU.value _ (by rw [hT.bytes, hs]))
  rw [h1]
  simp only
  rw [dif_pos (by rw [h2]; simpa using v.fits)]
  exact post_pure trivial

theorem post_decI8 {H : Heap} {little : Bool} (S : Source σ) {len : Run σ Nat} (hl : len.Safe) :
    Post (decI8 H little S len) fun _ => True := by
  unfold decI8
  refine post_bind hl.post fun n _ => ?_
  split
  · exact post_pure trivial
  · refine post_bind (post_withCapacity H 1 n) fun v _ => post_bind (post_readToEnd S n v) fun p _ => ?_
    simp only
    split
    · exact post_fail
    · exact post_fromRawParts (numL_anyBits ..) (numL_anyBits ..) rfl rfl _

theorem post_decBits {H : Heap} (S : Source σ) {len : Run σ Nat} (hl : len.Safe) :
    Post (decBits H S len) fun _ => True := by
  unfold decBits
  refine post_bind hl.post fun n _ => ?_
  split
  · exact post_pure trivial
  · refine post_bind (post_filled H 1 _ _) fun buf _ => post_bind (post_readExact S _) fun b _ => ?_
    exact post_bind (post_withCapacity H 1 n) fun v _ => post_pure trivial

theorem post_special {X : ι → Type} {H : Heap} {little : Bool} (S : Source σ) {len : Run σ Nat} (hl : len.Safe)
    (u : Ty ι) : Post (special (X := X) H little S len u) fun _ => True := by
  unfold special
  split
  · exact post_decBits S hl
  · exact post_decU8 S hl
  · exact post_decI8 S hl
  · split
    · exact post_decRaw (numL_anyBits ..) _ S hl
    · exact post_decEach S hl
  · split
    · exact post_decRaw (numL_anyBits ..) _ S hl
    · exact post_decEach S hl
  · exact post_decRaw (numL_anyBits ..) _ S hl
  · exact post_panic

theorem post_decVec {X : ι → Type} [DecidableEq ι] {cfg : Cfg} {H : Heap} {little : Bool} (S : Source σ)
    {len : Run σ Nat} (hl : len.Safe) (t : Ty ι) (size : Nat) {dec : Run σ (t.denote X)} (hd : dec.Safe) :
    Post (decVec cfg H little S len t size dec) fun _ => True := by
  unfold decVec
  split
  · rename_i u hu
    have ht : u = t := by
      split at hu
      · have h := List.find?_some hu
        exact eq_of_beq h
      · cases hu
    subst ht
    refine post_bind (post_special S hl u) fun v _ => ?_
    unfold transmute
    rw [dif_pos rfl]
    exact post_pure trivial
  · exact post_decElems hl hd

/-! ### On slices -/

/-- On every slice the run is seen to do what `r` does. -/
def Same (m : Run Bytes α) (f : α → β) (r : Rd β) : Prop := ∀ s, seen f (m.run s) = some (r s)

theorem same_pure {a : α} {f : α → β} : Same (pure a) f (pure (f a)) := fun _ => rfl

theorem run_bind (m : Run σ α) (k : α → Run σ β) (s : σ) : (m >>= k).run s = match m.run s with
    | (.ok a, s) => (k a).run s
    | (.err e, s) => (.err e, s)
    | (.panic, s) => (.panic, s)
    | (.ub, s) => (.ub, s) := rfl

theorem same_bind {δ : Type} {m : Run Bytes α} {f : α → β} {r : Rd β} {P : α → Prop} {k : α → Run Bytes γ} {g : γ → δ}
    {k' : β → Rd δ} (hm : Same m f r) (hp : Post m P) (hk : ∀ a, P a → Same (k a) g (k' (f a))) :
    Same (m >>= k) g (r >>= k') := by
  intro s
  rw [run_bind, Rd.bind_run]
  have hs := hm s
  have hps := (hp s).1
  revert hs hps
  rcases m.run s with ⟨o, s'⟩
  cases o with
  | ok a =>
    intro hs hps
    injection hs with hs
    rw [← hs]
    exact hk a (hps a rfl) s'
  | err e => intro hs _; injection hs with hs; rw [← hs]; rfl
  | panic => intro hs _; injection hs with hs; rw [← hs]; rfl
  | ub => intro hs; cases hs

theorem same_ofRd {m : Rd α} : Same (ofRd m) id m := by
  intro s
  unfold ofRd
  simp only
  cases m s with
  | ok p => rfl
  | err e => rfl
  | panic => rfl

theorem same_fail {e : Err} {f : α → β} : Same (fail e) f (Rd.fail e) := fun _ => rfl

/-- A run that needs no input. -/
theorem same_alloc {m : Run Bytes (Block α)} {c : Bool} {v : Block α}
    (h : ∀ s, m.run s = (if c then .ok v else .panic, s)) : Same m (fun _ => ()) (Rd.alloc c) := by
  intro s
  rw [h]
  unfold Rd.alloc
  cases c <;> rfl

theorem ofRd_safe (m : Rd α) : (ofRd m).Safe := by
  intro s
  unfold ofRd
  simp only
  cases m s <;> exact nofun

theorem same_withCapacity (H : Heap) (size n : Nat) :
    Same (withCapacity H size n : Run Bytes (Block α)) (fun _ => ()) (Rd.alloc (H.grant n && n * size < 2 ^ 63)) :=
  same_alloc fun _ => rfl

theorem same_filled (H : Heap) (size n : Nat) (a : α) :
    Same (filled H size n a) (fun _ => ()) (Rd.alloc (H.grant n && n * size < 2 ^ 63)) :=
  same_alloc fun _ => rfl

theorem same_readExact (buf : Bytes) : Same (sliceSource.readExact buf) id (Rd.readExact buf.length) := by
  intro s
  unfold sliceSource Rd.readExact
  simp only
  split <;> rfl

theorem same_pushLoop {dec : Run Bytes α} {r : Rd α} (hd : Same dec id r) (hs : dec.Safe) : ∀ (n : Nat) (v : Block α),
    v.elems.length + n ≤ v.cap → Same (pushLoop dec n v) Block.elems ((Rd.readN n r) >>= fun l => pure (v.elems ++ l))
  | 0, v, _ => by
    intro s
    show some (Res.ok (v.elems, s)) = some (Res.ok (v.elems ++ [], s))
    rw [List.append_nil]
  | n + 1, v, h => by
    unfold pushLoop Rd.readN
    intro s
    have ih := fun a => same_pushLoop hd hs n (v.push a) (by
      simp only [Block.push, List.length_append, List.length_singleton]; omega)
    rw [run_bind, Rd.bind_run, Rd.bind_run]
    have e := hd s
    revert e
    rcases dec.run s with ⟨o, s'⟩
    cases o with
    | ok a =>
      intro e
      injection e with e
      rw [← e]
      simp only [id]
      rw [run_bind]
      have hr : (requires (v.elems.length < v.cap) : Run Bytes Unit).run s' = (.ok (), s') := by
        unfold requires; simp only; rw [if_pos (by simp; omega)]
      rw [hr]
      simp only
      rw [ih a s', Rd.bind_run, Rd.bind_run]
      cases Rd.readN n r s' with
      | ok p =>
        obtain ⟨l, s''⟩ := p
        simp only [Block.push]
        show some (Res.ok (v.elems ++ [a] ++ l, s'')) = some (Res.ok (v.elems ++ (a :: l), s''))
        rw [List.append_assoc, List.singleton_append]
      | err e => rfl
      | panic => rfl
    | err e => intro e'; injection e' with e'; rw [← e']; rfl
    | panic => intro e'; injection e' with e'; rw [← e']; rfl
    | ub => intro e'; cases e'

theorem same_iff {m : Run Bytes α} {f : α → β} {r r' : Rd β} (h : Same m f r) (e : ∀ s, r s = r' s) : Same m f r' :=
  fun s => by rw [h s, e s]

theorem same_decElems {cfg : Cfg} {H : Heap} {size : Nat} {cap : Nat → Bool} {c : Codec α}
    (hcap : ∀ n, cap n = (H.grant n && n * size < 2 ^ 63)) :
    Same (decElems H size (ofRd (readLen cfg)) (ofRd c.dec)) Block.elems (vecC cfg cap c).dec := by
  unfold decElems vecC
  refine same_bind same_ofRd (ofRd_safe _).post fun n _ => ?_
  simp only [id]
  split
  · exact same_pure
  · rw [hcap]
    refine same_bind (same_withCapacity H size n) (post_withCapacity H size n) fun v hv => ?_
    refine same_iff (same_pushLoop same_ofRd (ofRd_safe _) n v (by rw [hv.1]; simpa using hv.2)) fun s => ?_
    rw [hv.1, Rd.bind_run]
    cases Rd.readN n c.dec s with
    | ok p => rfl
    | err e => rfl
    | panic => rfl

theorem same_decColl {cfg : Cfg} {H : Heap} {size : Nat} {cap : Nat → Bool} {dec : Rd α} {build : List α → β}
    (hcap : ∀ n, cap n = (H.grant n && n * size < 2 ^ 63)) :
    Same (decColl H size (ofRd (readLen cfg)) (ofRd dec) build) id (readColl cfg cap dec build) := by
  unfold decColl readColl
  refine same_bind same_ofRd (ofRd_safe _).post fun n _ => ?_
  simp only [id]
  rw [hcap]
  refine same_bind (same_withCapacity H size n) (post_withCapacity H size n) fun v hv => ?_
  have h := same_pushLoop (same_ofRd (m := dec)) (ofRd_safe _) n v (by rw [hv.1]; simpa using hv.2)
  have h' : Same (pushLoop (ofRd dec) n v) Block.elems (Rd.readN n dec) := by
    refine same_iff h fun s => ?_
    rw [hv.1, Rd.bind_run]
    cases Rd.readN n dec s with
    | ok p => rfl
    | err e => rfl
    | panic => rfl
  exact same_bind h' (P := fun _ => True) (post_pushLoop (ofRd_safe _) n v (by rw [hv.1]; simpa using hv.2)) fun v _ => same_pure

theorem valuesOf_num (W w : Nat) (bs : List Bytes) :
    valuesOf (numL true W w) bs = some (bs.map fun e => BitVec.ofNat W (leVal e)) := by
  induction bs with
  | nil => rfl
  | cons b bs ih => simp only [valuesOf, ih, List.map_cons]; rfl

theorem same_asBytes {T : Layout α} (v : Block α) (n : Nat) (h : n ≤ (v.memory T).length) (h63 : n < 2 ^ 63) :
    Same (asBytes T v n) id (pure ((v.memory T).take n)) := by
  intro s
  unfold asBytes
  rw [run_bind]
  unfold requires
  simp only
  rw [if_pos (by simp only [Bool.and_eq_true, decide_eq_true_eq]; exact ⟨h, h63⟩)]
  rfl

theorem same_decRaw {cfg : Cfg} {H : Heap} {W w : Nat} {cap : Nat → Bool} (a : BitVec W)
    (hcap : ∀ n, cap n = (H.grant n && n * w < 2 ^ 63)) :
    Same (decRaw H (numL true W w) a sliceSource (ofRd (readLen cfg))) Block.elems (bulkC cfg cap W w).dec := by
  unfold decRaw bulkC
  refine same_bind same_ofRd (ofRd_safe _).post fun n _ => ?_
  simp only [id]
  split
  · exact same_pure
  · rw [show (numL true W w).size = w from rfl]
    split
    · rw [hcap]
      refine same_bind (same_filled H w n a) (post_filled H w n a) fun v hv => ?_
      have hm := memory_length (numL_anyBits true W w) v
      rw [hv.1, List.length_replicate, show (numL true W w).size = w from rfl] at hm
      have h1 := same_bind (same_asBytes (T := numL true W w) v (n * w) (by omega) hv.2)
        (post_asBytes (T := numL true W w) v (n * w) (by omega) hv.2) (k := fun buf => sliceSource.readExact buf >>= fun b =>
          store (numL true W w) v b) (g := Block.elems) (k' := fun buf => Rd.readExact buf.length >>= fun b =>
            pure ((splitN w n b).map fun e => BitVec.ofNat W (leVal e))) fun buf hbuf => by
        refine same_bind (same_readExact buf) (post_readExact _ buf) fun b hb => ?_
        intro s
        have hbl : b.length = n * w := by rw [hb, hbuf, List.length_take]; omega
        unfold store
        rw [valuesOf_num, hv.1, List.length_replicate, List.drop_of_length_le (by rw [hm, hbl]; exact Nat.le_refl _), List.append_nil]
        simp only
        rw [dif_pos (by
          have := v.fits
          rw [hv.1, List.length_replicate] at this
          simpa using this)]
        rfl
      refine same_iff h1 fun s => ?_
      rw [Rd.bind_run]
      simp only [pure, id]
      rw [List.length_take, hm, Nat.min_self]
    · exact same_fail

theorem post_readLen (cfg : Cfg) : Post (ofRd (readLen cfg)) fun n => n < 2 ^ 64 := by
  intro s
  refine ⟨fun n h => ?_, ofRd_safe _ s⟩
  unfold ofRd readLen at h
  simp only [Rd.bind_run] at h
  cases hd : decInt cfg .usize s with
  | ok p =>
    rw [hd] at h
    have h : Out.ok p.1.toNat = .ok n := h
    injection h with h
    subst h
    exact p.1.isLt
  | err e => rw [hd] at h; cases h
  | panic => rw [hd] at h; cases h

theorem foldl_push_elems (l : List α) : ∀ (v : Block α), (l.foldl Block.push v).elems = v.elems ++ l := by
  induction l with
  | nil => intro v; simp
  | cons a l ih => intro v; rw [List.foldl_cons, ih]; simp [Block.push]

theorem foldl_push_map (f : γ → α) (l : List γ) (v : Block α) :
    (l.foldl (fun v b => v.push (f b)) v).elems = v.elems ++ l.map f := by
  rw [← List.foldl_map (f := f) (g := Block.push), foldl_push_elems]

theorem map_splitN_one : ∀ (b : Bytes), (splitN 1 b.length b).map (fun e => BitVec.ofNat 8 (leVal e)) = b.map UInt8.toBitVec
  | [] => rfl
  | x :: b => by
    simp only [List.length_cons, splitN, List.take_succ_cons, List.take_zero, List.drop_succ_cons, List.drop_zero,
      List.map_cons, map_splitN_one b, leVal]
    congr 1
    apply BitVec.eq_of_toNat_eq
    simp

/-- The bytes of a `Vec<u8>` on a slice. -/
theorem same_readToEnd (n : Nat) (v : Block (BitVec 8)) (hv : v.elems = []) (g : Block (BitVec 8) → Run Bytes (Block (BitVec 8)))
    (hg : ∀ v, Same (g v) Block.elems (pure v.elems)) :
    Same (sliceSource.readToEnd n v >>= fun p => if n ≠ p.1 then fail .io else g p.2) Block.elems
      (Rd.readExact (n * 1) >>= fun b => pure ((splitN 1 n b).map fun e => BitVec.ofNat 8 (leVal e))) := by
  intro s
  rw [run_bind, Rd.bind_run, Nat.mul_one]
  unfold sliceSource Rd.readExact
  simp only [List.length_take]
  by_cases h : n ≤ s.length
  · rw [if_pos h, if_neg (by simp only [ne_eq, Decidable.not_not]; omega), hg]
    have := map_splitN_one (s.take n)
    rw [List.length_take, Nat.min_eq_left h] at this
    simp only [foldl_push_map, hv, List.nil_append, this]
  · rw [if_neg h, if_pos (by omega)]
    rfl

theorem same_decU8 {cfg : Cfg} {H : Heap} {cap : Nat → Bool} (hcap : ∀ n, cap n = (H.grant n && n * 1 < 2 ^ 63)) :
    Same (decU8 H sliceSource (ofRd (readLen cfg))) Block.elems (bulkC cfg cap 8 1).dec := by
  unfold decU8 bulkC
  refine same_bind same_ofRd (post_readLen cfg) fun n hn => ?_
  simp only [id]
  split
  · exact same_pure
  · rw [if_pos (by omega), hcap]
    refine same_bind (same_withCapacity H 1 n) (post_withCapacity H 1 n) fun v hv => ?_
    exact same_readToEnd n v hv.1 pure fun v => same_pure

theorem valuesOf_bytes (little : Bool) (l : List (BitVec 8)) :
    valuesOf (numL little 8 1) (l.map (numL little 8 1).bytes) = some l := by
  induction l with
  | nil => rfl
  | cons a l ih =>
    simp only [List.map_cons, valuesOf, ih]
    have : (numL little 8 1).value ((numL little 8 1).bytes a) = some a := by
      have ha : a.toNat < 256 := a.isLt
      unfold numL
      simp only [leBytes]
      cases little <;> simp [leVal, Nat.mod_eq_of_lt ha]
    rw [this]

theorem same_decI8 {cfg : Cfg} {H : Heap} {cap : Nat → Bool} (little : Bool)
    (hcap : ∀ n, cap n = (H.grant n && n * 1 < 2 ^ 63)) :
    Same (decI8 H little sliceSource (ofRd (readLen cfg))) Block.elems (bulkC cfg cap 8 1).dec := by
  unfold decI8 bulkC
  refine same_bind same_ofRd (post_readLen cfg) fun n hn => ?_
  simp only [id]
  split
  · exact same_pure
  · rw [if_pos (by omega), hcap]
    refine same_bind (same_withCapacity H 1 n) (post_withCapacity H 1 n) fun v hv => ?_
    refine same_readToEnd n v hv.1 (fun v => fromRawParts (numL little 8 1) (numL little 8 1) v v.elems.length v.cap)
      fun v s => ?_
    unfold fromRawParts
    rw [run_bind]
    unfold requires
    simp only [beq_self_eq_true, Bool.and_self, Nat.le_refl, decide_true, if_true, List.take_length, valuesOf_bytes]
    rw [dif_pos v.fits]
    rfl

theorem same_decBits {cfg : Cfg} {H : Heap} {cap : Nat → Bool} (hcap : ∀ n, cap n = (H.grant n && n * 1 < 2 ^ 63)) :
    Same (decBits H sliceSource (ofRd (readLen cfg))) Block.elems (boolsC cfg cap).dec := by
  unfold decBits boolsC
  refine same_bind same_ofRd (post_readLen cfg) fun n hn => ?_
  simp only [id]
  split
  · exact same_pure
  · rw [hcap, hcap]
    refine same_bind (same_filled H 1 _ _) (post_filled H 1 _ _) fun buf hb => ?_
    refine same_iff (r := Rd.readExact buf.elems.length >>= fun b => Rd.alloc (H.grant n && n * 1 < 2 ^ 63) >>= fun _ =>
      pure (unpackBools n b)) ?_ fun s => by rw [hb.1, List.length_replicate]
    refine same_bind (same_readExact _) (post_readExact _ _) fun b _ => ?_
    refine same_bind (same_withCapacity H 1 n) (post_withCapacity H 1 n) fun v hv => ?_
    intro s
    show some (Res.ok (((unpackBools n b).foldl Block.push v).elems, s)) = _
    rw [foldl_push_elems, hv.1]
    rfl

theorem find_specialised [DecidableEq ι] (t : Ty ι) : (specialised.find? (· == t)) = if t ∈ specialised then some t else none := by
  split
  · rename_i h
    cases hf : specialised.find? (· == t) with
    | some u => have h := List.find?_some hf; rw [eq_of_beq h]
    | none =>
      rw [List.find?_eq_none] at hf
      exact absurd (beq_self_eq_true t) (hf t h)
  · rename_i h
    rw [List.find?_eq_none]
    intro u hu he
    exact h (eq_of_beq he ▸ hu)

theorem same_special {cfg : Cfg} (hs : cfg.specialised = true) {E : Env ι} {H : Heap} (t : Ty ι) (ht : t ∈ specialised)
    {size : Nat} (hw : width t = some size) (hcap : ∀ n, E.cap t n = (H.grant n && n * size < 2 ^ 63)) (c : Codec (t.denote E.X)) :
    Same (special (X := E.X) H true sliceSource (ofRd (readLen cfg)) t) Block.elems (vecOf cfg E t c).dec := by
  simp only [specialised, List.mem_cons, List.not_mem_nil, or_false] at ht
  rcases ht with rfl | rfl | rfl | rfl | rfl | rfl | rfl | rfl | rfl | rfl | rfl | rfl | rfl | rfl <;>
    (injection hw with hw; subst hw; unfold vecOf; simp only [hs])
  · exact same_decBits hcap
  · exact same_decU8 hcap
  · exact same_decI8 true hcap
  all_goals exact same_decRaw _ hcap

theorem vecOf_not {cfg : Cfg} {E : Env ι} (t : Ty ι) (c : Codec (t.denote E.X))
    (h : cfg.specialised = false ∨ t ∉ specialised) : vecOf cfg E t c = vecC cfg (E.cap t) c := by
  unfold vecOf
  split
  · rcases h with h | h
    · rw [h]; rfl
    · exact absurd (by simp [specialised]) h
  · rename_i k _
    rcases h with h | h
    · rw [h]; rfl
    · cases k <;> first | (refine absurd ?_ h; simp [specialised]; done) | (cases cfg.specialised <;> rfl)
  · rename_i f _
    rcases h with h | h
    · rw [h]; rfl
    · cases f <;> exact absurd (by simp [specialised]) h
  · rcases h with h | h
    · rw [h]; rfl
    · exact absurd (by simp [specialised]) h
  · rfl

theorem same_decVec [DecidableEq ι] {cfg : Cfg} {E : Env ι} {H : Heap} (t : Ty ι) {size : Nat}
    (hw : ∀ w, width t = some w → size = w) (hcap : ∀ n, E.cap t n = (H.grant n && n * size < 2 ^ 63))
    (c : Codec (t.denote E.X)) :
    Same (decVec cfg H true sliceSource (ofRd (readLen cfg)) t size (ofRd c.dec)) Block.elems (vecOf cfg E t c).dec := by
  unfold decVec
  by_cases hs : cfg.specialised = true ∧ t ∈ specialised
  · rw [hs.1, if_pos rfl, find_specialised, if_pos hs.2]
    have hw' : width t = some size := by
      cases h : width t with
      | some w => rw [hw w h]
      | none =>
        have ht := hs.2
        simp only [specialised, List.mem_cons, List.not_mem_nil, or_false] at ht
        rcases ht with rfl | rfl | rfl | rfl | rfl | rfl | rfl | rfl | rfl | rfl | rfl | rfl | rfl | rfl <;> cases h
    have h1 := same_special hs.1 t hs.2 hw' hcap c
    refine same_iff (same_bind h1 (post_special _ (ofRd_safe _) t) (k' := pure) fun v _ => ?_) fun s => ?_
    · unfold transmute
      rw [dif_pos rfl]
      exact same_pure
    · rw [Rd.bind_run]
      cases (vecOf cfg E t c).dec s with
      | ok p => rfl
      | err e => rfl
      | panic => rfl
  · have h1 : (if cfg.specialised then specialised.find? (· == t) else none) = none := by
      cases h : cfg.specialised with
      | false => rfl
      | true => rw [if_pos rfl, find_specialised, if_neg fun ht => hs ⟨h, ht⟩]
    rw [h1]
    simp only
    rw [vecOf_not t c (by
      cases h : cfg.specialised with
      | false => exact .inl rfl
      | true => exact .inr fun ht => hs ⟨h, ht⟩)]
    exact same_decElems hcap

/-! ### Big-endian machines -/

theorem same_readNum (W w : Nat) :
    Same (sliceSource.readExact (List.replicate w 0) >>= fun b => pure (BitVec.ofNat W (leVal b))) id (readLE W w) := by
  refine same_iff (same_bind (same_readExact _) (post_readExact _ _) (k' := fun b => pure (BitVec.ofNat W (leVal b)))
    fun b _ => same_pure) fun s => ?_
  rw [List.length_replicate]
  rfl

theorem same_decEach {cfg : Cfg} {H : Heap} {W w : Nat} {cap : Nat → Bool}
    (hcap : ∀ n, cap n = (H.grant n && n * w < 2 ^ 63)) :
    Same (decEach H W w sliceSource (ofRd (readLen cfg))) Block.elems (do
      let n ← readLen cfg
      if n = 0 then pure [] else do
        Rd.alloc (cap n)
        let b ← Rd.readExact (n * w)
        pure ((splitN w n b).map fun e => BitVec.ofNat W (leVal e))) := by
  unfold decEach decElems
  refine same_bind same_ofRd (ofRd_safe _).post fun n _ => ?_
  simp only [id]
  split
  · exact same_pure
  · rw [hcap]
    refine same_bind (same_withCapacity H w n) (post_withCapacity H w n) fun v hv => ?_
    have hsafe : (sliceSource.readExact (List.replicate w 0) >>= fun b => pure (BitVec.ofNat W (leVal b)) :
        Run Bytes (BitVec W)).Safe := (post_bind (post_readExact _ _) fun b _ => post_pure (P := fun _ => True) trivial).safe
    refine same_iff (same_pushLoop (same_readNum W w) hsafe n v (by rw [hv.1]; simpa using hv.2)) fun s => ?_
    rw [hv.1, ← readN_readLE, Rd.bind_run]
    cases Rd.readN n (readLE W w) s with
    | ok p => rfl
    | err e => rfl
    | panic => rfl

/-! ### Writing -/

theorem encRaw_run {T : Layout α} (hT : T.AnyBits) (v : Block α) (h : v.elems.length * T.size < 2 ^ 63) (s : σ) :
    (encRaw T v : Run σ Bytes).run s = (.ok (v.elems.flatMap T.bytes), s) := by
  unfold encRaw
  split
  · rename_i h0
    rw [List.eq_nil_of_length_eq_zero h0]
    rfl
  · rw [if_pos (by omega)]
    have hm := memory_length hT v
    unfold asBytes
    rw [run_bind]
    unfold requires
    simp only
    rw [if_pos (by simp only [Bool.and_eq_true, decide_eq_true_eq]; exact ⟨by omega, h⟩)]
    show (Out.ok ((v.memory T).take _), s) = _
    rw [← hm, List.take_length]
    rfl

theorem numL_bytes_one (little : Bool) (l : List (BitVec 8)) :
    l.flatMap (numL little 8 1).bytes = l.flatMap fun a => leBytes 1 a.toNat := by
  cases little <;> rfl

theorem encVec_result [DecidableEq ι] (cfg : Cfg) (E : Env ι) (little : Bool) (t : Ty ι) (c : Codec (t.denote E.X))
    (v : Block (t.denote E.X)) (h : ∀ w, width t = some w → v.cap * w < 2 ^ 63) (s : σ) :
    result ((encVec cfg little t (encList c.enc) v).run s) = some ((vecOf cfg E t c).enc v.elems) := by
  unfold encVec
  by_cases hs : cfg.specialised = true ∧ t ∈ specialised
  · rw [hs.1, if_pos rfl, find_specialised, if_pos hs.2]
    have hf : ∀ w, width t = some w → v.elems.length * w < 2 ^ 63 := fun w hw =>
      Nat.lt_of_le_of_lt (Nat.mul_le_mul_right w v.fits) (h w hw)
    unfold transmute
    simp only [dif_pos]
    show result ((specialBytes little t v >>= fun b => pure (encLen cfg v.elems.length ++ b) : Run σ Bytes).run s) = _
    have ht := hs.2
    rw [run_bind]
    simp only [specialised, List.mem_cons, List.not_mem_nil, or_false] at ht
    rcases ht with rfl | rfl | rfl | rfl | rfl | rfl | rfl | rfl | rfl | rfl | rfl | rfl | rfl | rfl <;>
      (unfold vecOf; simp only [hs.1]; have hf := hf _ rfl; unfold specialBytes)
    · rfl
    · rfl
    · have e := encRaw_run (numL_anyBits little 8 1) v hf s
      rw [numL_bytes_one] at e
      simp only
      rw [e]
      rfl
    all_goals
      first
      | (simp only
         rw [encRaw_run (numL_anyBits ..) v hf]; rfl)
      | (cases little
         · rfl
         · simp only [if_true]
           rw [encRaw_run (numL_anyBits ..) v hf]; rfl)
  · have h1 : (if cfg.specialised then specialised.find? (· == t) else none) = none := by
      cases h : cfg.specialised with
      | false => rfl
      | true => rw [if_pos rfl, find_specialised, if_neg fun ht => hs ⟨h, ht⟩]
    rw [h1, vecOf_not t c (by
      cases h : cfg.specialised with
      | false => exact .inl rfl
      | true => exact .inr fun ht => hs ⟨h, ht⟩)]
    unfold vecC
    simp only
    cases encList c.enc v.elems <;> rfl

end Revision.Unsafe
