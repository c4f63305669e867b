import Verif.Model.Machine
import Verif.Proofs.ProgramFaithful

/-! Helper lemmas: codecs on other machines. -/

namespace Revision

/-! ### Reading the bytes of a value -/

/-- A codec that does on the bytes it writes what a faithful one does is faithful. -/
theorem Codec.Faithful.transport {c d : Codec α} (hd : d.Faithful) (hv : ∀ v, c.valid v → d.valid v)
    (he : ∀ v b, c.enc v = .ok b → d.enc v = .ok b)
    (h : ∀ v b t, c.valid v → c.enc v = .ok b → c.dec (b ++ t) = d.dec (b ++ t) ∧ c.skip (b ++ t) = d.skip (b ++ t) ∧
      c.skipS (b ++ t) = d.skipS (b ++ t) ∧ c.check (b ++ t) = d.check (b ++ t)) : c.Faithful where
  round_trip v b h1 h2 t := by rw [(h v b t h1 h2).1]; exact hd.round_trip v b (hv v h1) (he v b h2) t
  skip_after v b h1 h2 t := by rw [(h v b t h1 h2).2.1]; exact hd.skip_after v b (hv v h1) (he v b h2) t
  skipS_after v b h1 h2 t := by rw [(h v b t h1 h2).2.2.1]; exact hd.skipS_after v b (hv v h1) (he v b h2) t
  check_after v b h1 h2 t := by rw [(h v b t h1 h2).2.2.2]; exact hd.check_after v b (hv v h1) (he v b h2) t

theorem Rd.discard_congr {m m' : Rd α} {s : Bytes} (h : m s = m' s) : m.discard s = m'.discard s := by
  unfold Rd.discard
  cases hm : m s with
  | ok p => rw [Rd.bind_of_ok hm, Rd.bind_of_ok (h ▸ hm)]
  | err e => rw [Rd.bind_of_err hm, Rd.bind_of_err (h ▸ hm)]
  | panic => rw [Rd.bind_of_panic hm, Rd.bind_of_panic (h ▸ hm)]

/-- Two element types with given impls. -/
def duoEnv {α β : Type} (a : Codec α) (b : Codec β) (cap : Nat → Bool) (cmp : α → α → Ordering) (eq : α → α → Bool) :
    Env Bool where
  X := fun x => match x with
    | true => α
    | false => β
  extC := fun x => match x with
    | true => a
    | false => b
  cap := fun _ => cap
  cmp := fun t => match t with
    | .ext true => cmp
    | _ => fun _ _ => .eq
  eq := fun t => match t with
    | .ext true => eq
    | _ => fun _ _ => true

/-- No further types. -/
def leafEnv (cap : Nat → Bool) : Env Empty where
  X := fun e => nomatch e
  extC := fun e => nomatch e
  cap := fun _ => cap
  cmp := fun _ _ _ => .eq
  eq := fun _ _ _ => true

theorem leaf_faithful (cfg : Cfg) (cap : Nat → Bool) (t : Ty Empty) : (t.codec cfg (leafEnv cap)).Faithful :=
  Ty.codec_faithful_of cfg (fun i => nomatch i) t

section
variable {α β : Type} {a : Codec α} {b : Codec β}

theorem Codec.Faithful.compose (ha : a.Faithful) (hb : b.Faithful) (cfg : Cfg) (cap : Nat → Bool)
    (cmp : α → α → Ordering) (eq : α → α → Bool) (t : Ty Bool) : (t.codec cfg (duoEnv a b cap cmp eq)).Faithful :=
  Ty.codec_faithful_of cfg (E := duoEnv a b cap cmp eq) (fun i => match i with | true => ha | false => hb) t

/-- One element type. -/
theorem Codec.Faithful.compose₁ (ha : a.Faithful) (cfg : Cfg) (cap : Nat → Bool)
    (cmp : α → α → Ordering) (eq : α → α → Bool) (t : Ty Bool) : (t.codec cfg (duoEnv a a cap cmp eq)).Faithful :=
  ha.compose ha cfg cap cmp eq t

end

namespace Machine

variable {M : Machine} {cfg : Cfg}

/-! ### Integers and lengths -/

theorem asUsize_eq {v : BitVec 64} (h : v.toNat < 2 ^ M.bits) : M.asUsize v = v := by
  unfold asUsize
  rw [Nat.mod_eq_of_lt h, BitVec.ofNat_toNat, BitVec.setWidth_eq]

theorem asIsize_eq (hM : 1 ≤ M.bits) {v : BitVec 64}
    (h : -(2 ^ (M.bits - 1) : Int) ≤ v.toInt ∧ v.toInt < 2 ^ (M.bits - 1)) : M.asIsize v = v := by
  unfold asIsize
  have e : (2 : Nat) ^ M.bits = 2 * 2 ^ (M.bits - 1) := by
    rw [← Nat.pow_succ']; congr 1; omega
  have : (v.toInt).bmod (2 ^ M.bits) = v.toInt := by
    refine Int.bmod_eq_of_le ?_ ?_
    · rw [e]
      have := h.1
      have e2 : ((2 ^ (M.bits - 1) : Nat) : Int) = 2 ^ (M.bits - 1) := by push_cast; rfl
      omega
    · rw [e]
      have := h.2
      have e2 : ((2 ^ (M.bits - 1) : Nat) : Int) = 2 ^ (M.bits - 1) := by push_cast; rfl
      omega
  rw [this, BitVec.ofInt_toInt]

theorem decInt_enc (hM : 1 ≤ M.bits) (k : IntTy) (v : BitVec k.bits) (hv : M.hasInt k v) (t : Bytes) :
    M.decInt cfg k (encInt cfg k v ++ t) = .ok (v, t) := by
  cases k with
  | usize =>
    show (do let x ← Revision.decInt cfg .u64; pure (M.asUsize x) : Rd (BitVec 64)) (encInt cfg .u64 v ++ t) = _
    rw [Rd.bind_of_ok (decInt_encInt cfg .u64 v t), asUsize_eq hv]
    rfl
  | isize =>
    show (do let x ← Revision.decInt cfg .i64; pure (M.asIsize x) : Rd (BitVec 64)) (encInt cfg .i64 v ++ t) = _
    rw [Rd.bind_of_ok (decInt_encInt cfg .i64 v t), asIsize_eq hM hv]
    rfl
  | _ => exact decInt_encInt cfg _ v t

theorem readLen_enc (hM : M.bits ≤ 64) {n : Nat} (h : n < 2 ^ M.bits) (t : Bytes) :
    M.readLen cfg (encLen cfg n ++ t) = .ok (n, t) := by
  have h64 : n < 2 ^ 64 := Nat.lt_of_lt_of_le h (Nat.pow_le_pow_right (by decide) hM)
  have e : (BitVec.ofNat 64 n).toNat = n := by simp [Nat.mod_eq_of_lt h64]
  unfold readLen encLen
  have : M.decInt cfg .usize (encInt cfg .usize (BitVec.ofNat 64 n) ++ t) = .ok (BitVec.ofNat 64 n, t) := by
    show (do let x ← Revision.decInt cfg .u64; pure (M.asUsize x) : Rd (BitVec 64)) (encInt cfg .u64 _ ++ t) = _
    rw [Rd.bind_of_ok (decInt_encInt cfg .u64 _ t), asUsize_eq (by show (BitVec.ofNat 64 n).toNat < _; rw [e]; exact h)]
    rfl
  rw [Rd.bind_of_ok this]
  show Res.ok ((BitVec.ofNat 64 n).toNat, t) = _
  rw [e]

theorem lt64 (hM : M.bits ≤ 64) {n : Nat} (h : n < 2 ^ M.bits) : n < 2 ^ 64 :=
  Nat.lt_of_lt_of_le h (Nat.pow_le_pow_right (by decide) hM)

theorem intC_faithful (hM : 1 ≤ M.bits) (k : IntTy) : (M.intC cfg k).Faithful := by
  have : ∀ v b, M.hasInt k v → Res.ok (encInt cfg k v) = .ok b → ∀ t, M.decInt cfg k (b ++ t) = .ok (v, t) := by
    intro v b hv hb t
    cases hb
    exact decInt_enc hM k v hv t
  exact ⟨this, fun v b hv hb t => Rd.discard_ok (this v b hv hb t), fun v b hv hb t => Rd.discard_ok (this v b hv hb t),
    fun v b hv hb t => Rd.discard_ok (this v b hv hb t)⟩

/-! ### Bytes and strings -/

theorem readBytes_enc (hM : M.bits ≤ 64) {cap : Nat → Bool} {x : Bytes} (h : x.length < 2 ^ M.bits) (t : Bytes) :
    M.readBytes cfg cap (encBytes cfg x ++ t) = Revision.readBytes cfg cap (encBytes cfg x ++ t) := by
  unfold readBytes Revision.readBytes encBytes
  rw [List.append_assoc, Rd.bind_of_ok (readLen_enc hM h _), Rd.bind_of_ok (readLen_encLen cfg (lt64 hM h) _)]

theorem skipBytes_enc (hM : M.bits ≤ 64) {x : Bytes} (h : x.length < 2 ^ M.bits) (t : Bytes) :
    M.skipBytes cfg (encBytes cfg x ++ t) = Revision.skipBytes cfg (encBytes cfg x ++ t) := by
  unfold skipBytes Revision.skipBytes encBytes
  rw [List.append_assoc, Rd.bind_of_ok (readLen_enc hM h _), Rd.bind_of_ok (readLen_encLen cfg (lt64 hM h) _)]

theorem skipBytesS_enc (hM : M.bits ≤ 64) {x : Bytes} (h : x.length < 2 ^ M.bits) (t : Bytes) :
    M.skipBytesS cfg (encBytes cfg x ++ t) = Revision.skipBytesS cfg (encBytes cfg x ++ t) := by
  unfold skipBytesS Revision.skipBytesS encBytes
  rw [List.append_assoc, Rd.bind_of_ok (readLen_enc hM h _), Rd.bind_of_ok (readLen_encLen cfg (lt64 hM h) _)]

theorem Rd.bind_congr {m m' : Rd α} {f : α → Rd β} {s : Bytes} (h : m s = m' s) : (m >>= f) s = (m' >>= f) s := by
  cases hm : m s with
  | ok p => rw [Rd.bind_of_ok hm, Rd.bind_of_ok (h ▸ hm)]
  | err e => rw [Rd.bind_of_err hm, Rd.bind_of_err (h ▸ hm)]
  | panic => rw [Rd.bind_of_panic hm, Rd.bind_of_panic (h ▸ hm)]

theorem bytesC_faithful (hM : M.bits ≤ 64) (cap : Nat → Bool) : (M.bytesC cfg cap).Faithful := by
  refine .transport (d := Revision.bytesC cfg cap) (leaf_faithful cfg cap .bytes) (fun _ h => h.2) (fun _ _ h => h) ?_
  rintro v _ t hv ⟨⟩
  exact ⟨readBytes_enc hM hv.1 t, skipBytes_enc hM hv.1 t, skipBytesS_enc hM hv.1 t, Rd.discard_congr (readBytes_enc hM hv.1 t)⟩

theorem stringC_faithful (hM : M.bits ≤ 64) (cap : Nat → Bool) : (M.stringC cfg cap).Faithful := by
  refine .transport (d := Revision.stringC cfg cap) (leaf_faithful cfg cap .string) (fun _ h => h.2) (fun _ _ h => h) ?_
  rintro v _ t hv ⟨⟩
  have := Rd.bind_congr (f := fun b => Rd.lift (fromUtf8 b)) (readBytes_enc (cfg := cfg) (cap := cap) hM hv.1 t)
  exact ⟨this, skipBytes_enc hM hv.1 t, skipBytesS_enc hM hv.1 t, Rd.discard_congr this⟩

theorem pathC_faithful (hM : M.bits ≤ 64) (cap : Nat → Bool) : (M.pathC cfg cap).Faithful := by
  refine .transport (d := Revision.pathC cfg cap) (leaf_faithful cfg cap .path) (fun _ h => h.2) (fun _ _ h => h) ?_
  rintro v b t hv hb
  have hb' : (match fromUtf8 v with | .ok _ => .ok (encBytes cfg v) | _ => Res.err .invalidPath : Res Bytes) = .ok b := hb
  obtain ⟨s, hs⟩ := hv.2.2
  rw [hs] at hb'
  cases hb'
  have h1 := Rd.bind_congr (f := fun b => Rd.lift (fromUtf8 b)) (readBytes_enc (cfg := cfg) (cap := cap) hM hv.1 t)
  have := Rd.bind_congr (f := fun s => (pure (strBytes s) : Rd Bytes)) (m := (M.stringC cfg cap).dec)
    (m' := (Revision.stringC cfg cap).dec) h1
  exact ⟨this, Rd.discard_congr this, Rd.discard_congr this, Rd.discard_congr this⟩

/-! ### Vectors and collections -/

variable {α : Type} {c : Codec α}

/-- The reading code of both machines starts with the same length. -/
theorem len_bind (hM : M.bits ≤ 64) {n : Nat} (h : n < 2 ^ M.bits) {f g : Nat → Rd β} {x t : Bytes}
    (hfg : f n (x ++ t) = g n (x ++ t)) :
    (M.readLen cfg >>= f) (encLen cfg n ++ x ++ t) = (Revision.readLen cfg >>= g) (encLen cfg n ++ x ++ t) := by
  rw [List.append_assoc, Rd.bind_of_ok (readLen_enc hM h _), Rd.bind_of_ok (readLen_encLen cfg (lt64 hM h) _)]
  exact hfg

theorem vecC_faithful (hM : M.bits ≤ 64) (cap : Nat → Bool) (hc : c.Faithful) : (M.vecC cfg cap c).Faithful := by
  refine .transport (d := Revision.vecC cfg cap c) (hc.compose₁ cfg cap (fun _ _ => .eq) (fun _ _ => true) (.vec (.ext true)))
    (fun _ h => h.2) (fun _ _ h => h) ?_
  rintro l b t hv hb
  obtain ⟨x, hx, hb⟩ := Res.bind_eq_ok.1 hb
  cases hb
  exact ⟨len_bind hM hv.1 rfl, len_bind hM hv.1 rfl, len_bind hM hv.1 rfl, Rd.discard_congr (len_bind hM hv.1 rfl)⟩

theorem boolsC_faithful (hM : M.bits ≤ 64) (cap : Nat → Bool) : (M.boolsC cfg cap).Faithful := by
  refine .transport (d := Revision.boolsC cfg cap) (leaf_faithful ⟨cfg.fixedWidth, true⟩ cap (.vec .bool))
    (fun _ h => h.2) (fun _ _ h => h) ?_
  rintro l _ t hv ⟨⟩
  exact ⟨len_bind hM hv.1 rfl, len_bind hM hv.1 rfl, len_bind hM hv.1 rfl, Rd.discard_congr (len_bind hM hv.1 rfl)⟩

theorem bulkC_faithful (hM : M.bits ≤ 64) (cap : Nat → Bool) {W w : Nat} (h : (Revision.bulkC cfg cap W w).Faithful) :
    (M.bulkC cfg cap W w).Faithful := by
  refine .transport (d := Revision.bulkC cfg cap W w) h (fun _ h => h.2.2) (fun _ _ h => h) ?_
  rintro l _ t hv ⟨⟩
  have e : M.checkedMul l.length w .integerOverflow = .ok (l.length * w) := if_pos hv.2.1
  have e' : l.length * w < 2 ^ 64 := lt64 hM hv.2.1
  have d := len_bind (cfg := cfg) (x := l.flatMap fun v => leBytes w v.toNat) (t := t) hM hv.1
    (f := fun n => if n = 0 then pure [] else do
      let k ← Rd.lift (M.checkedMul n w .integerOverflow)
      Rd.alloc (cap n)
      let b ← Rd.readExact k
      pure ((splitN w n b).map fun e => BitVec.ofNat W (leVal e)))
    (g := fun n => if n = 0 then pure []
      else if n * w < 2 ^ 64 then do
        Rd.alloc (cap n)
        let b ← Rd.readExact (n * w)
        pure ((splitN w n b).map fun e => BitVec.ofNat W (leVal e))
      else Rd.fail .integerOverflow)
    (by
      simp only [e, if_pos e']
      rfl)
  refine ⟨d, len_bind hM hv.1 ?_, len_bind hM hv.1 ?_, Rd.discard_congr d⟩
  · simp only [e, if_pos e']
    rfl
  · simp only [e, if_pos e']
    rfl

theorem collC_faithful (hM : M.bits ≤ 64) {cap : Nat → Bool} {inv : List α → Prop} {build : List α → List α}
    (h : (Revision.collC cfg cap c inv build).Faithful) : (M.collC cfg cap c inv build).Faithful := by
  refine .transport (d := Revision.collC cfg cap c inv build) h (fun _ h => h.2) (fun _ _ h => h) ?_
  rintro l b t hv hb
  obtain ⟨x, hx, hb⟩ := Res.bind_eq_ok.1 hb
  cases hb
  exact ⟨len_bind hM hv.1 rfl, len_bind hM hv.1 rfl, len_bind hM hv.1 rfl, Rd.discard_congr (len_bind hM hv.1 rfl)⟩

theorem bulkInt_faithful (cap : Nat → Bool) (k : IntTy) (hk : (k != .usize && k != .isize) = true) :
    (Revision.bulkC cfg cap k.bits (k.bits / 8)).Faithful := by
  have := leaf_faithful ⟨cfg.fixedWidth, true⟩ cap (.vec (.int k))
  rw [Ty.codec, Revision.vecOf, Bool.true_and, if_pos hk] at this
  exact this

theorem vecOf_faithful (hM : M.bits ≤ 64) {E : Env ι} (t : Ty ι) {c : Codec (t.denote E.X)} (hc : c.Faithful) :
    (M.vecOf cfg E t c).Faithful := by
  cases t with
  | bool =>
    show (if cfg.specialised = true then _ else _ : Codec _).Faithful
    split
    · exact boolsC_faithful hM _
    · exact vecC_faithful hM _ hc
  | int k =>
    show (if (cfg.specialised && k != .usize && k != .isize) = true then _ else _ : Codec _).Faithful
    split
    · rename_i h
      simp only [Bool.and_eq_true] at h
      exact bulkC_faithful hM _ (bulkInt_faithful _ k (by simp only [h, Bool.and_true]))
    · exact vecC_faithful hM _ hc
  | float f =>
    show (if cfg.specialised = true then _ else _ : Codec _).Faithful
    split
    · exact bulkC_faithful hM _ (leaf_faithful ⟨cfg.fixedWidth, true⟩ _ (.vec (.float f)))
    · exact vecC_faithful hM _ hc
  | uuid =>
    show (if cfg.specialised = true then _ else _ : Codec _).Faithful
    split
    · exact bulkC_faithful hM _ (leaf_faithful ⟨cfg.fixedWidth, true⟩ _ (.vec .uuid))
    · exact vecC_faithful hM _ hc
  | _ => exact vecC_faithful hM _ hc

theorem codec_faithful (h1 : 1 ≤ M.bits) (hM : M.bits ≤ 64) {E : Env ι} (hx : ∀ i, (E.extC i).Faithful) (t : Ty ι) :
    (M.codec cfg E t).Faithful := by
  induction t with
  | unit => exact leaf_faithful cfg (fun _ => true) .unit
  | bool => exact leaf_faithful cfg (fun _ => true) .bool
  | int k => exact intC_faithful h1 k
  | float f => exact leaf_faithful cfg (fun _ => true) (.float f)
  | char => exact leaf_faithful cfg (fun _ => true) .char
  | string => exact stringC_faithful hM _
  | path => exact pathC_faithful hM _
  | bytes => exact bytesC_faithful hM _
  | uuid => exact leaf_faithful cfg (fun _ => true) .uuid
  | duration => exact leaf_faithful cfg (fun _ => true) .duration
  | systemTime => exact leaf_faithful cfg (fun _ => true) .systemTime
  | notNan f => exact leaf_faithful cfg (fun _ => true) (.notNan f)
  | option t ih => exact ih.compose₁ cfg (fun _ => true) (fun _ _ => .eq) (fun _ _ => true) (.option (.ext true))
  | result t e iht ihe => exact iht.compose ihe cfg (fun _ => true) (fun _ _ => .eq) (fun _ _ => true) (.result (.ext true) (.ext false))
  | bound t ih => exact ih.compose₁ cfg (fun _ => true) (fun _ _ => .eq) (fun _ _ => true) (.bound (.ext true))
  | wrap t ih => exact ih.compose₁ cfg (fun _ => true) (fun _ _ => .eq) (fun _ _ => true) (.wrap (.ext true))
  | pair s t ihs iht => exact ihs.compose iht cfg (fun _ => true) (fun _ _ => .eq) (fun _ _ => true) (.pair (.ext true) (.ext false))
  | array k t ih => exact ih.compose₁ cfg (fun _ => true) (fun _ _ => .eq) (fun _ _ => true) (.array k (.ext true))
  | vec t ih => exact vecOf_faithful hM t ih
  | btreeMap k v ihk ihv =>
    exact collC_faithful hM (ihk.compose ihv cfg (E.cap (.pair k v)) (E.cmp k) (fun _ _ => true) (.btreeMap (.ext true) (.ext false)))
  | btreeSet k ih =>
    exact collC_faithful hM (ih.compose₁ cfg (E.cap k) (E.cmp k) (fun _ _ => true) (.btreeSet (.ext true)))
  | hashMap k v ihk ihv =>
    exact collC_faithful hM (ihk.compose ihv cfg (E.cap (.pair k v)) (fun _ _ => .eq) (E.eq k) (.hashMap (.ext true) (.ext false)))
  | hashSet k ih =>
    exact collC_faithful hM (ih.compose₁ cfg (E.cap k) (fun _ _ => .eq) (E.eq k) (.hashSet (.ext true)))
  | binaryHeap t ih =>
    exact collC_faithful hM (ih.compose₁ cfg (E.cap t) (E.cmp t) (fun _ _ => true) (.binaryHeap (.ext true)))
  | vector t ih =>
    exact collC_faithful hM (ih.compose₁ cfg (E.cap t) (fun _ _ => .eq) (fun _ _ => true) (.vector (.ext true)))
  | ext i => exact hx i

end Machine

end Revision
