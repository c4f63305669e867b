import Verif.Proofs.Buffer
import Verif.Props.Copy

/-! C134: the bytes serialising buffers. -/

namespace Revision

section
variable {ι : Type} [DecidableEq ι]

/-- C134: the serialisers that count buffered bytes are the serialisers of the type with a counter added: they give the same bytes, or
fail the same way. -/
theorem C134_counts (cfg : Cfg) (P : Program ι) (I : Impls P.kind) (n : Nat) (i : ι) (v : Values P.kind n i) :
    (P.buffered cfg I n i v).erase = (P.codec cfg I n i).enc v :=
  (P.buffered_costs cfg I n i v).erase

/-- C134: a value that serialises to `s` has at most as many bytes buffered on the way as `s` has, times the number of optimised types
and indexed collections around each other. -/
theorem C134_bound (cfg : Cfg) (P : Program ι) (I : Impls P.kind) (n : Nat) (i : ι) (v : Values P.kind n i) (s : Bytes)
    (h : (P.codec cfg I n i).enc v = .ok s) : ∃ k, P.buffered cfg I n i v = .ok (k, s) ∧ k ≤ P.buffers n i * s.length := by
  have hc := P.buffered_costs cfg I n i v
  rw [h] at hc
  rcases hb : P.buffered cfg I n i v with ⟨k, a⟩ | e | _
  · have he := hc.erase
    rw [hb] at he
    cases he
    exact ⟨k, rfl, hc.le k _ hb⟩
  · have he := hc.erase
    rw [hb] at he
    cases he
  · have he := hc.erase
    rw [hb] at he
    cases he

omit [DecidableEq ι] in
/-- C134: the buffers around each other are no more than two for each of the types around each other. -/
theorem C134_buffers_depth (P : Program ι) : ∀ (n : Nat) (i : ι), P.buffers n i ≤ 2 * n
  | 0, _ => Nat.le_refl _
  | n + 1, i => by
    have hf : ∀ f : Field P.kind, f.buffers (lastEntry (P.history i)) (P.buffers n) ≤ 1 + 2 * n := fun f => by
      have : (f.ty.refs.map (P.buffers n)).foldr max 0 ≤ 2 * n := foldr_max_le fun a ha => by
        obtain ⟨j, _, rfl⟩ := List.mem_map.1 ha
        exact C134_buffers_depth P n j
      simp only [Field.buffers]
      split <;> omega
    have : (((P.body i).fieldsAt (lastEntry (P.history i)).revision).map
        (Field.buffers (lastEntry (P.history i)) (P.buffers n))).foldr max 0 ≤ 1 + 2 * n := foldr_max_le fun a ha => by
      obtain ⟨f, _, rfl⟩ := List.mem_map.1 ha
      exact hf f
    simp only [Program.buffers]
    split <;> omega

omit [DecidableEq ι] in
/-- C134: if no type whose current revision is optimised contains itself, however indirectly (each type has a rank no lower than those
of the types in its fields, two higher if its current revision is optimised), the number is at most the rank, whatever the nesting:
serialising buffers a number of bytes linear in the output. -/
theorem C134_buffers_rank (P : Program ι) (w : ι → Nat)
    (hw : ∀ i, ∀ f ∈ (P.body i).fieldsAt (lastEntry (P.history i)).revision, ∀ j ∈ f.ty.refs, w j ≤ w i)
    (ho : ∀ i, (lastEntry (P.history i)).optimised = true → 2 ≤ w i ∧
      ∀ f ∈ (P.body i).fieldsAt (lastEntry (P.history i)).revision, ∀ j ∈ f.ty.refs, w j + 2 ≤ w i) :
    ∀ (n : Nat) (i : ι), P.buffers n i ≤ w i
  | 0, _ => Nat.zero_le _
  | n + 1, i => by
    have ih := C134_buffers_rank P w hw ho n
    have le : ∀ b, (∀ f ∈ (P.body i).fieldsAt (lastEntry (P.history i)).revision,
        f.buffers (lastEntry (P.history i)) (P.buffers n) ≤ b) → (((P.body i).fieldsAt (lastEntry (P.history i)).revision).map
        (Field.buffers (lastEntry (P.history i)) (P.buffers n))).foldr max 0 ≤ b := fun b hb => foldr_max_le fun a ha => by
      obtain ⟨f, hf, rfl⟩ := List.mem_map.1 ha
      exact hb f hf
    simp only [Program.buffers]
    by_cases h : (lastEntry (P.history i)).optimised = true
    · obtain ⟨h2, h3⟩ := ho i h
      have := le (w i - 1) fun f hf => by
        have : (f.ty.refs.map (P.buffers n)).foldr max 0 ≤ w i - 2 := foldr_max_le fun a ha => by
          obtain ⟨j, hj, rfl⟩ := List.mem_map.1 ha
          have := ih j
          have := h3 f hf j hj
          omega
        simp only [Field.buffers]
        split <;> omega
      rw [if_pos h]
      omega
    · have := le (w i) fun f hf => by
        have : (f.ty.refs.map (P.buffers n)).foldr max 0 ≤ w i := foldr_max_le fun a ha => by
          obtain ⟨j, hj, rfl⟩ := List.mem_map.1 ha
          exact Nat.le_trans (ih j) (hw i f hf j hj)
        simp only [Field.buffers, h, Bool.false_and, Bool.false_eq_true, if_false]
        omega
      rw [if_neg h]
      omega

/-- C134: a program without types whose current revision is optimised buffers nothing. -/
theorem C134_plain (cfg : Cfg) (P : Program ι) (I : Impls P.kind) (hP : ∀ i, (lastEntry (P.history i)).optimised = false)
    (n : Nat) (i : ι) (v : Values P.kind n i) (s : Bytes) (h : (P.codec cfg I n i).enc v = .ok s) :
    P.buffered cfg I n i v = .ok (0, s) := by
  obtain ⟨k, hk, hl⟩ := C134_bound cfg P I n i v s h
  have h0 : P.buffers n i = 0 := Nat.le_zero.1 <| C134_buffers_rank P (fun _ => 0) (fun _ _ _ _ _ => Nat.le_refl _)
    (fun i h => by rw [hP i] at h; cases h) n i
  rw [h0, Nat.zero_mul] at hl
  rw [hk, Nat.le_zero.1 hl]

end

/-! ### A record is buffered whole -/

theorem Bf.bind_inv {m : Bf α} {f : α → Bf β} {k : Nat} {b : β} (h : (m >>= f) = .ok (k, b)) :
    ∃ k1 a l, m = .ok (k1, a) ∧ f a = .ok (l, b) ∧ k = k1 + l := by
  rcases m with ⟨k1, a⟩ | e | _
  · change (match f a with | .ok (l, b) => (.ok (k1 + l, b) : Bf β) | .err e => .err e | .panic => .panic) = _ at h
    rcases hf : f a with ⟨l, b'⟩ | e | _ <;> rw [hf] at h <;> cases h
    exact ⟨k1, a, l, rfl, hf, rfl⟩
  · cases h
  · cases h

theorem Bf.buffer_inv {m : Bf Bytes} {k : Nat} {b : Bytes} (h : Bf.buffer m = .ok (k, b)) : b.length ≤ k := by
  rcases m with ⟨k1, a⟩ | e | _ <;> cases h
  exact Nat.le_add_left _ _

theorem Bf.of_inv {r : Res α} {k : Nat} {a : α} (h : Bf.of r = .ok (k, a)) : r = .ok a := by
  cases r <;> cases h
  rfl

theorem lengthPrefixed_size {b s : Bytes} (h : lengthPrefixed b = .ok s) : s.length = b.length + 4 := by
  unfold lengthPrefixed at h
  split at h
  · cases h; rw [List.length_append, leBytes_length]; omega
  · cases h

theorem bufferedStructBody_record {V : Type} {e : Entry} {fs : List (BufferedField V)} {this : List V} (ho : e.optimised = true)
    {k : Nat} {s : Bytes} (h : bufferedStructBody e fs this = .ok (k, s)) : s.length ≤ k + 4 := by
  unfold bufferedStructBody at h
  rw [if_pos ho] at h
  obtain ⟨k1, a, l, h1, h2, rfl⟩ := Bf.bind_inv h
  have := Bf.buffer_inv h1
  have := lengthPrefixed_size (Bf.of_inv h2)
  omega

theorem bufferedEnumBody_record {V : Type} {cfg : Cfg} {e : Entry} {vs : List (BufferedVariant V)} {x : EnumVal V}
    (ho : e.optimised = true) {k : Nat} {s : Bytes} (h : bufferedEnumBody cfg e vs x = .ok (k, s)) : s.length ≤ k + 5 := by
  unfold bufferedEnumBody at h
  split at h
  · cases h
  · simp only [ho, if_true] at h
    split at h
    all_goals
      rename_i hs
      rw [hs] at h
      obtain ⟨k1, a, l, h1, h2, rfl⟩ := Bf.bind_inv h
      have h2 := Bf.of_inv h2
    · cases h2
      show 1 ≤ _
      omega
    · have := Bf.buffer_inv h1
      cases h2
      simp only [List.length_cons]
      omega
    · have := Bf.buffer_inv h1
      obtain ⟨p, hp, e⟩ := Res.bind_eq_ok.1 h2
      cases e
      have := lengthPrefixed_size hp
      simp only [List.length_cons]
      omega

theorem Body.buffered_record {ι : Type} {K : ι → Kind} [DecidableEq ι] {cfg : Cfg} {I : Impls K} {n : Nat}
    {c : (i : ι) → Codec (Values K n i)} {x : (i : ι) → Values K n i → Bf Bytes} {hist : List Entry}
    (ho : (lastEntry hist).optimised = true) : ∀ {k : Kind}, k.Derived → ∀ (b : Body K k) (v) {m : Nat} {s : Bytes},
    Body.buffered cfg I n c x hist b v = .ok (m, s) → s.length ≤ m + (encU16 cfg (latest hist)).length + 5
  | _, _, .struct fs, v, m, s, h => by
    obtain ⟨k1, a, l, h1, h2, rfl⟩ := Bf.bind_inv h
    have := bufferedStructBody_record ho h1
    cases h2
    rw [List.length_append]
    omega
  | _, _, .enum vs, v, m, s, h => by
    obtain ⟨k1, a, l, h1, h2, rfl⟩ := Bf.bind_inv h
    have := bufferedEnumBody_record ho h1
    cases h2
    rw [List.length_append]
    omega

/-- C134: of a type whose current revision is optimised all but the header (the revision, and at most a tag and a length) is buffered. -/
theorem C134_record {ι : Type} [DecidableEq ι] (cfg : Cfg) (P : Program ι) (I : Impls P.kind) (n : Nat) (i : ι) (v : Values P.kind n i)
    (hd : (P.kind i).Derived) (ho : (lastEntry (P.history i)).optimised = true) (k : Nat) (s : Bytes)
    (h : P.buffered cfg I n i v = .ok (k, s)) : s.length ≤ k + (encU16 cfg (latest (P.history i))).length + 5 :=
  match n, v, h with
  | 0, v, _ => nomatch v
  | _ + 1, v, h => Body.buffered_record ho hd (P.body i) v h

/-! ### The elements of indexed collections are buffered one by one -/

theorem Bf.each_buffer_inv {α : Type} {enc : α → Bf Bytes} : ∀ {l : List α} {k : Nat} {bs : List Bytes},
    Bf.each (fun a => Bf.buffer (enc a)) l = .ok (k, bs) → (bs.map List.length).sum ≤ k
  | [], k, bs, h => by cases h; exact Nat.zero_le _
  | a :: l, k, bs, h => by
    obtain ⟨k1, b, l1, h1, h2, rfl⟩ := Bf.bind_inv h
    obtain ⟨k2, bs', l2, h3, h4, rfl⟩ := Bf.bind_inv h2
    cases h4
    have := Bf.buffer_inv h1
    have := Bf.each_buffer_inv h3
    simp only [List.map_cons, List.sum_cons]
    omega

theorem Bf.each_pair_inv {κ ν : Type} {f : κ → Bf Bytes} {g : ν → Bf Bytes} :
    ∀ {l : List (κ × ν)} {k : Nat} {ps : List (Bytes × Bytes)},
    Bf.each (Bf.pair f g) l = .ok (k, ps) → (ps.map fun p => p.1.length + p.2.length).sum ≤ k
  | [], k, ps, h => by cases h; exact Nat.zero_le _
  | a :: l, k, ps, h => by
    obtain ⟨k1, b, l1, h1, h2, rfl⟩ := Bf.bind_inv h
    obtain ⟨k2, ps', l2, h3, h4, rfl⟩ := Bf.bind_inv h2
    cases h4
    obtain ⟨k3, kb, l3, h5, h6, rfl⟩ := Bf.bind_inv h1
    obtain ⟨k4, vb, l4, h7, h8, rfl⟩ := Bf.bind_inv h6
    cases h8
    have := Bf.buffer_inv h5
    have := Bf.buffer_inv h7
    have := Bf.each_pair_inv h3
    simp only [List.map_cons, List.sum_cons]
    omega

theorem Bf.erase_ok {m : Bf α} {k : Nat} {a : α} (h : m = .ok (k, a)) : m.erase = .ok a := by rw [h]; rfl

@[simp] theorem Bf.erase_bind (m : Bf α) (f : α → Bf β) : (m >>= f).erase = (m.erase >>= fun a => (f a).erase) := by
  rcases m with ⟨k, a⟩ | e | _
  · show Bf.erase (match f a with | .ok (l, b) => (.ok (k + l, b) : Bf β) | .err e => .err e | .panic => .panic) = (f a).erase
    rcases f a with ⟨l, b⟩ | e | _ <;> rfl
  · rfl
  · rfl

theorem Bf.buffer_erase (m : Bf Bytes) : m.buffer.erase = m.erase := by rcases m with ⟨k, a⟩ | e | _ <;> rfl

theorem Bf.each_erase {f : α → Bf β} {g : α → Res β} (h : ∀ a, (f a).erase = g a) : ∀ l, (Bf.each f l).erase = encEach g l
  | [] => rfl
  | a :: l => by
    simp only [Bf.each, encEach, Bf.erase_bind, h, Bf.each_erase h l]
    rfl

section
variable {ι : Type} [DecidableEq ι] (cfg : Cfg) (P : Program ι) (I : Impls P.kind) (n : Nat)

theorem Ty.buffered_erase (t : Ty ι) (v : t.denote (Values P.kind n)) :
    (P.bufferedTy cfg I n t v).erase = P.encTy cfg I n t v :=
  (Ty.buffered_costs (L := (t.refs.map (P.buffers n)).foldr max 0) cfg (I.env n (P.codec cfg I n)) _ t
    (fun i hi v => (P.buffered_costs cfg I n i v).weaken (le_foldr_max (List.mem_map_of_mem hi))) v).erase

/-- C134: the elements of an indexed sequence, of `bs` bytes, are all buffered; so are those of an indexed set. -/
theorem C134_elements (t : Ty ι) (l : List (t.denote (Values P.kind n))) (bs : List Bytes)
    (hb : encEach (P.encTy cfg I n t) l = .ok bs) (k : Nat) (s : Bytes) :
    (P.bufferedCollection cfg I n (.vec t) l = .ok (k, s) → (bs.map List.length).sum ≤ k) ∧
    (P.bufferedCollection cfg I n (.vector t) l = .ok (k, s) → (bs.map List.length).sum ≤ k) ∧
    (P.bufferedCollection cfg I n (.btreeSet t) l = .ok (k, s) → (bs.map List.length).sum ≤ k) ∧
    (P.bufferedCollection cfg I n (.hashSet t) l = .ok (k, s) → (bs.map List.length).sum ≤ k) := by
  have he : (Bf.each (fun a => Bf.buffer (P.bufferedTy cfg I n t a)) l).erase = .ok bs := by
    rw [← hb]
    exact Bf.each_erase (fun a => (Bf.buffer_erase _).trans (t.buffered_erase cfg P I n a)) l
  have key : ∀ {f : List Bytes → Bf Bytes}, (Bf.each (fun a => Bf.buffer (P.bufferedTy cfg I n t a)) l >>= f) = .ok (k, s) →
      (bs.map List.length).sum ≤ k := fun {f} hk => by
    obtain ⟨k1, bs', l1, h1, _, rfl⟩ := Bf.bind_inv hk
    have := Bf.each_buffer_inv h1
    rw [Bf.erase_ok h1] at he
    cases he
    omega
  exact ⟨key, key, key, key⟩

/-- C134: so are the keys and values of an indexed map. -/
theorem C134_entries (t u : Ty ι) (l : List (t.denote (Values P.kind n) × u.denote (Values P.kind n)))
    (ps : List (Bytes × Bytes))
    (hb : encEach (encPair (P.encTy cfg I n t) (P.encTy cfg I n u)) l = .ok ps) (k : Nat) (s : Bytes) :
    (P.bufferedCollection cfg I n (.btreeMap t u) l = .ok (k, s) → (ps.map fun p => p.1.length + p.2.length).sum ≤ k) ∧
    (P.bufferedCollection cfg I n (.hashMap t u) l = .ok (k, s) → (ps.map fun p => p.1.length + p.2.length).sum ≤ k) := by
  have he : (Bf.each (Bf.pair (P.bufferedTy cfg I n t) (P.bufferedTy cfg I n u)) l).erase = .ok ps := by
    rw [← hb]
    refine Bf.each_erase (fun a => ?_) l
    simp only [Bf.pair, encPair, Bf.erase_bind, Bf.buffer_erase, Ty.buffered_erase cfg P I n]
    rfl
  have key : ∀ {f : List (Bytes × Bytes) → Bf Bytes},
      (Bf.each (Bf.pair (P.bufferedTy cfg I n t) (P.bufferedTy cfg I n u)) l >>= f) = .ok (k, s) →
      (ps.map fun p => p.1.length + p.2.length).sum ≤ k := fun {f} hk => by
    obtain ⟨k1, bs', l1, h1, _, rfl⟩ := Bf.bind_inv hk
    have := Bf.each_pair_inv h1
    rw [Bf.erase_ok h1] at he
    cases he
    omega
  exact ⟨key, key⟩

end

/-! ### Records in records -/

theorem Bf.bind_ok {m : Bf α} {f : α → Bf β} {k l : Nat} {a : α} {b : β} (h : m = .ok (k, a)) (h' : f a = .ok (l, b)) :
    (m >>= f) = .ok (k + l, b) := by
  subst h
  show (match f a with | .ok (l, b) => (.ok (k + l, b) : Bf β) | .err e => .err e | .panic => .panic) = _
  rw [h']

theorem node_buffered (k : Nat) (hk : 6 * k + 1 < 2 ^ 32) : nodeProgram.buffered .default nodeImpls (k + 1) () (nodeChain k) =
    .ok ((3 * k + 1) * (k + 1), 1 :: (leBytes 4 (nodeFields k).length ++ nodeFields k)) := by
  induction k with
  | zero => rfl
  | succ k ih =>
    let f := Field.buffered .default nodeImpls (k + 1) (nodeProgram.codec .default nodeImpls (k + 1))
      (nodeProgram.buffered .default nodeImpls (k + 1))
      ⟨"next", {}, .option (.wrap (.ext ())), fun _ _ => .ok (none : Option _), fun _ _ _ v => .ok v⟩
    have next : f.wire ⟨1, true, false⟩ (nodeNext k) = .ok ((3 * k + 1) * (k + 1) + 0, nodeFields (k + 1)) :=
      Bf.bind_ok (f := fun b => pure (encInt .default .u8 1 ++ b)) (ih (by omega)) rfl
    have all : bufferedFields (fun f => f.wire ⟨1, true, false⟩) 1 [f] [nodeNext k] =
        .ok ((3 * k + 1) * (k + 1) + 0 + 0, nodeFields (k + 1) ++ []) :=
      Bf.bind_ok (f := fun b => bufferedFields (fun f => f.wire ⟨1, true, false⟩) 1 [] [] >>= fun bs => pure (b ++ bs)) next rfl
    have fields : Bf.buffer (bufferedFields (fun f => f.wire ⟨1, true, false⟩) 1 [f] [nodeNext k]) =
        .ok ((3 * k + 1) * (k + 1) + 0 + 0 + (nodeFields (k + 1) ++ []).length, nodeFields (k + 1) ++ []) := by
      rw [all]
      rfl
    rw [List.append_nil] at fields
    have len : Bf.of (lengthPrefixed (nodeFields (k + 1))) =
        .ok (0, leBytes 4 (nodeFields (k + 1)).length ++ nodeFields (k + 1)) := by
      unfold lengthPrefixed
      rw [if_pos (by rw [nodeFields_length]; exact hk)]
      rfl
    have whole := Bf.bind_ok (f := fun b => pure (encU16 .default 1 ++ b)) (l := 0)
      (Bf.bind_ok (f := fun b => Bf.of (lengthPrefixed b)) fields len) rfl
    refine Eq.trans (show _ = _ from whole) ?_
    have : (3 * k + 1) * (k + 1) + 0 + 0 + (nodeFields (k + 1)).length + 0 + 0 = (3 * (k + 1) + 1) * (k + 1 + 1) := by
      rw [nodeFields_length]
      simp only [Nat.add_mul, Nat.mul_add]
      omega
    rw [this]
    rfl

/-- C134: and no bound on the buffering that is linear in the output holds: a node with `k` nodes in it, each in the one before,
serialises to `6 * (k + 1)` bytes, and serialising it buffers `(3 * k + 1) * (k + 1)`. -/
theorem C134_quadratic (k : Nat) (hk : 6 * k + 1 < 2 ^ 32) : ∃ s : Bytes,
    (nodeProgram.codec .default nodeImpls (k + 1) ()).enc (nodeChain k) = .ok s ∧ s.length = 6 * (k + 1) ∧
    nodeProgram.buffered .default nodeImpls (k + 1) () (nodeChain k) = .ok ((3 * k + 1) * (k + 1), s) := by
  refine ⟨_, node_enc k hk, ?_, node_buffered k hk⟩
  simp only [List.length_cons, List.length_append, leBytes_length, nodeFields_length]
  omega

/-! ### Examples -/

example (n : Nat) : nodeProgram.buffers n () = n := by
  induction n with
  | zero => rfl
  | succ n ih =>
    show 1 + max (0 + max (nodeProgram.buffers n ()) 0) 0 = n + 1
    omega

/-- A node in a node in a node: 18 bytes, of which 21 are buffered. -/
example : nodeProgram.buffered .default nodeImpls 3 () (nodeChain 2) =
    .ok (21, [1, 13, 0, 0, 0, 1, 1, 7, 0, 0, 0, 1, 1, 1, 0, 0, 0, 0]) := rfl

/-- A document of 30 bytes. Its two parts, of 10 bytes each, go to a buffer each, and its body of 25 bytes to a third. -/
example : demoProgram.buffered .default demoImpls 4 .doc demoDocNew =
    .ok (45, [1, 25, 0, 0, 0, 1, 100, 0, 2, 2, 1, 2, 2, 0, 5, 0, 2, 1, 0, 2, 1, 2, 2, 0, 5, 0, 2, 1, 0, 0]) := rfl

/-- The two parts as an indexed sequence: 23 bytes, of which the parts' 20 are buffered. -/
example : ∃ k s, demoProgram.bufferedCollection .default demoImpls 3 (.vec (.ext .tree)) [demoTreeNew, demoTreeNew] = .ok (k, s) ∧ 20 ≤ k :=
  ⟨_, _, rfl, (C134_elements .default demoProgram demoImpls 3 (.ext .tree) [demoTreeNew, demoTreeNew]
    [[2, 1, 2, 2, 0, 5, 0, 2, 1, 0], [2, 1, 2, 2, 0, 5, 0, 2, 1, 0]] rfl _ _).1 rfl⟩

example : ∃ k s, demoProgram.bufferedCollection .default demoImpls 3 (.btreeMap (.int .u8) (.ext .tree))
    [((7 : BitVec 8), demoTreeNew)] = .ok (k, s) ∧ 11 ≤ k := by
  have h : demoProgram.bufferedCollection .default demoImpls 3 (.btreeMap (.int .u8) (.ext .tree)) [((7 : BitVec 8), demoTreeNew)] =
      .ok (11 + 0, [0, 1, 7, 2, 1, 2, 2, 0, 5, 0, 2, 1, 0]) := by
    refine Bf.bind_ok (a := [([7], [2, 1, 2, 2, 0, 5, 0, 2, 1, 0])]) rfl ?_
    rw [List.mergeSort_singleton]
    rfl
  exact ⟨_, _, h, (C134_entries .default demoProgram demoImpls 3 (.int .u8) (.ext .tree) [((7 : BitVec 8), demoTreeNew)]
    [([7], [2, 1, 2, 2, 0, 5, 0, 2, 1, 0])] rfl _ _).1 h⟩

example : demoProgram.buffers 4 .doc = 5 := rfl

/-- Trees, whose current revision is not optimised, contain only trees. -/
example (v : Values demoProgram.kind 3 .tree) (s : Bytes) (h : (demoProgram.codec .default demoImpls 3 .tree).enc v = .ok s) :
    demoProgram.buffered .default demoImpls 3 .tree v = .ok (0, s) := by
  obtain ⟨k, hk, hl⟩ := C134_bound .default demoProgram demoImpls 3 .tree v s h
  rw [show demoProgram.buffers 3 .tree = 0 from rfl, Nat.zero_mul] at hl
  rw [hk, Nat.le_zero.1 hl]

/-- With optimised parts and wholes, to any depth, no byte is buffered more than four times. -/
example (n : Nat) (v : Values framedParts.kind n .whole) (s : Bytes)
    (h : (framedParts.codec .default partsImpls n .whole).enc v = .ok s) :
    ∃ k, framedParts.buffered .default partsImpls n .whole v = .ok (k, s) ∧ k ≤ 4 * s.length := by
  obtain ⟨k, hk, hl⟩ := C134_bound .default framedParts partsImpls n .whole v s h
  refine ⟨k, hk, Nat.le_trans hl (Nat.mul_le_mul_right _ ?_)⟩
  have hj : ∀ i, ∀ f ∈ (framedParts.body i).fieldsAt (lastEntry (framedParts.history i)).revision, ∀ j ∈ f.ty.refs,
      i = .whole ∧ j = .part := fun i f hf j hj => by
    have : j ∈ framedParts.refs i := List.mem_flatMap.2 ⟨f.ty, ?_, hj⟩
    · cases i with
      | part => cases this
      | whole => exact ⟨rfl, List.mem_singleton.1 this⟩
    · cases i with
      | part => exact List.mem_map_of_mem (List.mem_filter.1 hf).1
      | whole => exact List.mem_map_of_mem (List.mem_filter.1 hf).1
  exact C134_buffers_rank framedParts (fun | .part => 2 | .whole => 4)
    (fun i f hf j h => by obtain ⟨rfl, rfl⟩ := hj i f hf j h; decide)
    (fun i _ => ⟨by cases i <;> decide, fun f hf j h => by obtain ⟨rfl, rfl⟩ := hj i f hf j h; decide⟩) n .whole

end Revision
