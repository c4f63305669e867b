import Verif.Spec.Exchange
import Verif.Proofs.Program

/-! Helper lemmas: any version of a program reads the data of any other. -/

namespace Revision

variable {ι : Type}

section
variable {K : ι → Kind}

theorem stop_asOf {s r : Nat} (h : s ≤ r) (o : Option Nat) :
    (o.filter fun e => decide (e ≤ r)).filter (fun e => decide (e ≤ s)) = o.filter fun e => decide (e ≤ s) := by
  cases o with
  | none => rfl
  | some e =>
    by_cases h1 : e ≤ s
    · simp [Option.filter, h1, Nat.le_trans h1 h]
    · by_cases h2 : e ≤ r <;> simp [Option.filter, h1, h2]

theorem Field.asOf_asOf {s r : Nat} (h : s ≤ r) (f : Field K) : (f.asOf r).bind (Field.asOf s) = f.asOf s := by
  unfold Field.asOf
  by_cases h1 : f.opts.start.getD 0 ≤ s
  · rw [if_pos (Nat.le_trans h1 h), Option.bind_some, if_pos h1, if_pos h1]
    simp only [stop_asOf h]
  · rw [if_neg h1]
    by_cases h2 : f.opts.start.getD 0 ≤ r
    · rw [if_pos h2, Option.bind_some, if_neg h1]
    · rw [if_neg h2]; rfl

theorem fields_asOf_asOf {s r : Nat} (h : s ≤ r) (fs : List (Field K)) :
    (fs.filterMap (Field.asOf r)).filterMap (Field.asOf s) = fs.filterMap (Field.asOf s) := by
  rw [List.filterMap_filterMap]
  exact congrArg (fun g => fs.filterMap g) (funext (Field.asOf_asOf h))

theorem Variant.asOf_asOf {s r : Nat} (h : s ≤ r) (v : Variant K) : (v.asOf r).bind (Variant.asOf s) = v.asOf s := by
  unfold Variant.asOf
  by_cases h1 : v.opts.start.getD 0 ≤ s
  · rw [if_pos (Nat.le_trans h1 h), Option.bind_some, if_pos h1, if_pos h1]
    simp only [stop_asOf h, fields_asOf_asOf h]
  · rw [if_neg h1]
    by_cases h2 : v.opts.start.getD 0 ≤ r
    · rw [if_pos h2, Option.bind_some, if_neg h1]
    · rw [if_neg h2]; rfl

theorem Body.asOf_asOf {s r : Nat} (h : s ≤ r) : {k : Kind} → (b : Body K k) → (b.asOf r).asOf s = b.asOf s
  | _, .struct fs => congrArg Body.struct (fields_asOf_asOf h fs)
  | _, .enum vs => congrArg Body.enum (by
      rw [List.filterMap_filterMap]
      exact congrArg (fun g => vs.filterMap g) (funext (Variant.asOf_asOf h)))
  | _, .foreign _ => rfl

variable [DecidableEq ι] {cfg : Cfg} {I I' : Impls K} {n m : Nat} {c : (i : ι) → Codec (Values K n i)}
  {c' : (i : ι) → Codec (Values K m i)}

/-- The data of a derived type begins with its revision. -/
theorem Body.enc_revision {hist : List Entry} : {k : Kind} → (body : Body K k) → k.derived = true →
    {v : k.values (DynAt K n)} → {b : Bytes} → (body.codec cfg I n c hist).enc v = .ok b →
    ∃ x, b = encU16 cfg (latest hist) ++ x
  | _, .struct fs, _, v, b, h => by
    obtain ⟨x, _, e⟩ := Res.bind_eq_ok.1 h
    exact ⟨x, (Res.ok.inj e).symm⟩
  | _, .enum vs, _, v, b, h => by
    obtain ⟨x, _, e⟩ := Res.bind_eq_ok.1 h
    exact ⟨x, (Res.ok.inj e).symm⟩
  | _, .foreign _, h, _, _, _ => nomatch h

/-- A derived type refuses a revision it does not know, whatever follows. -/
theorem Body.refuses {hist : List Entry} (hh : ValidHistory hist) {k : Nat} (h1 : hist.length < k) (h2 : k < 2 ^ 16) :
    {kd : Kind} → (body : Body K kd) → kd.derived = true → (t : Bytes) →
    (body.codec cfg I n c hist).dec (encU16 cfg k ++ t) = .err .deserialize ∧
      (body.codec cfg I n c hist).skip (encU16 cfg k ++ t) = .err .deserialize ∧
      (body.codec cfg I n c hist).skipS (encU16 cfg k ++ t) = .err .deserialize ∧
      (body.codec cfg I n c hist).check (encU16 cfg k ++ t) = .err .deserialize
  | _, .struct fs, _, t => by
    refine ⟨dispatch_miss cfg hh h2 (.inr h1) _ t, dispatch_miss cfg hh h2 (.inr h1) _ t,
      dispatch_miss cfg hh h2 (.inr h1) _ t, ?_⟩
    show Rd.discard _ _ = _
    unfold Rd.discard
    rw [Rd.bind_run, dispatch_miss cfg hh h2 (.inr h1) _ t]
  | _, .enum vs, _, t => by
    refine ⟨dispatch_miss cfg hh h2 (.inr h1) _ t, dispatch_miss cfg hh h2 (.inr h1) _ t,
      dispatch_miss cfg hh h2 (.inr h1) _ t, ?_⟩
    show Rd.discard _ _ = _
    unfold Rd.discard
    rw [Rd.bind_run, dispatch_miss cfg hh h2 (.inr h1) _ t]
  | _, .foreign _, h, _ => nomatch h

/-- Types with impls written by hand. -/
theorem Body.foreign_reads {g : (i : ι) → Values K n i → Option (Values K m i)} {hist hist' : List Entry} {e : Entry}
    {s r tgt : Nat} : {k : Kind} → (body : Body K k) → k.derived ≠ true →
    ((body.asOf s).codec cfg I n c hist).Reads w ((body.asOf r).codec cfg I' m c' hist')
      ((body.asOf r).migrate cfg I I' n m c c' g e tgt)
  | _, .struct _, h => absurd rfl h
  | _, .enum _, h => absurd rfl h
  | _, .foreign x, _ =>
    { dec := fun v b hv hb t => by
        show (x.codec.dec (b ++ t)).ok? = _
        rw [x.faithful.round_trip v b hv hb t]
        rfl
      skip := fun v b hv hb t => .ok (x.faithful.skip_after v b hv hb t)
      skipS := fun v b hv hb t => .ok (x.faithful.skipS_after v b hv hb t)
      check := fun v b hv hb t => by
        show (x.codec.check (b ++ t)).ok? = _
        rw [x.faithful.check_after v b hv hb t]
        rfl }

end

variable [DecidableEq ι]

/-- A newer type is refused. -/
theorem Program.newer_refused (cfg : Cfg) (P : Program ι) (I I' : Impls P.kind) (s r : ι → Nat)
    (hh : ∀ i, ValidHistory (P.history i)) (hs : ∀ i, 1 ≤ s i ∧ s i ≤ (P.history i).length) (hr : ∀ i, 1 ≤ r i)
    (n m : Nat) (hm : 0 < m) (i : ι) (hi : P.Newer s r i) (v : Values P.kind n i) (b : Bytes)
    (hb : ((P.asOf s).codec cfg I n i).enc v = .ok b) (t : Bytes) :
    ((P.asOf r).codec cfg I' m i).dec (b ++ t) = .err .deserialize ∧
      ((P.asOf r).codec cfg I' m i).skip (b ++ t) = .err .deserialize ∧
      ((P.asOf r).codec cfg I' m i).skipS (b ++ t) = .err .deserialize ∧
      ((P.asOf r).codec cfg I' m i).check (b ++ t) = .err .deserialize := by
  cases n with
  | zero => exact nomatch v
  | succ n =>
    cases m with
    | zero => exact absurd hm (Nat.lt_irrefl 0)
    | succ m =>
      obtain ⟨x, rfl⟩ := Body.enc_revision (cfg := cfg) (I := I) (c := (P.asOf s).codec cfg I n) ((P.asOf s).body i) hi.1 hb
      have e : latest ((P.asOf s).history i) = s i := by
        have := ((hh i).take (hs i).1 (hs i).2).latest_eq
        rwa [List.length_take, Nat.min_eq_left (hs i).2] at this
      have hf := (hh i).fits
      have hw := hs i
      have hlt := hi.2
      rw [e, List.append_assoc]
      exact Body.refuses ((hh i).take (hr i) (by omega)) (by rw [List.length_take]; omega) (by omega)
        ((P.asOf r).body i) hi.1 (x ++ t)

/-- Every type at every depth. -/
theorem Program.exchanges (cfg : Cfg) (P : Program ι) (I I' : Impls P.kind) (s r : ι → Nat) (hP : P.Exchanges cfg s r)
    (hcap : ∀ t k, I.cap t k = true → I'.cap t k = true) (hw : ∀ i, P.Newer s r i → w = true) :
    ∀ (n m : Nat) (_ : n ≤ m) (i : ι),
    ((P.asOf s).codec cfg I n i).Reads w ((P.asOf r).codec cfg I' m i) (P.migrateTo cfg I I' s r n m i)
  | 0, _, _, _ => ⟨fun v => Empty.elim v, fun v => Empty.elim v, fun v => Empty.elim v, fun v => Empty.elim v⟩
  | n + 1, 0, h, _ => absurd h (Nat.not_succ_le_zero n)
  | n + 1, m + 1, h, i => by
    have ih := Program.exchanges cfg P I I' s r hP hcap hw n m (Nat.le_of_succ_le_succ h)
    by_cases hN : P.Newer s r i
    · have key := fun v b => P.newer_refused cfg I I' s r hP.history hP.writer (fun i => (hP.reader i).1) (n + 1) (m + 1) (Nat.succ_pos m) i hN v b
      have e : ∀ v, P.migrateTo cfg I I' s r (n + 1) (m + 1) i v = none := fun _ => if_pos hN
      refine ⟨fun v b _ hb t => ?_, fun v b _ hb t => .inr ⟨hw i hN, ?_⟩, fun v b _ hb t => .inr ⟨hw i hN, ?_⟩,
        fun v b _ hb t => ?_⟩
      · exact (congrArg Res.ok? (key v b hb t).1).trans (congrArg (Option.map _) (e v)).symm
      · rw [(key v b hb t).2.1]; exact nofun
      · rw [(key v b hb t).2.2.1]; exact nofun
      · exact (congrArg Res.ok? (key v b hb t).2.2.2).trans (congrArg (Option.map _) (e v)).symm
    · have e : P.migrateTo cfg I I' s r (n + 1) (m + 1) i =
          Body.migrate cfg I I' n m ((P.asOf s).codec cfg I n) ((P.asOf r).codec cfg I' m)
            (P.migrateTo cfg I I' s r n m) (P.entryAt s i) (r i) ((P.body i).asOf (r i)) :=
        funext fun _ => if_neg hN
      rw [e]
      have hlen : ((P.history i).take (r i)).length = r i := by rw [List.length_take, Nat.min_eq_left (hP.reader i).2]
      by_cases hle : s i ≤ r i
      · have htake : ((P.history i).take (r i)).take (s i) = (P.history i).take (s i) := by
          rw [List.take_take, Nat.min_eq_left hle]
        have key := Body.reads (w := w) (cfg := cfg) ⟨hcap, ih⟩ ((P.history i).take (r i))
          ((hP.history i).take (hP.reader i).1 (hP.reader i).2) (s i) (hP.writer i).1 (by rw [hlen]; exact hle)
          ((P.body i).asOf (r i)) (by rw [htake, hlen]; exact hP.body i hle)
        rw [htake, hlen, Body.asOf_asOf hle] at key
        exact key
      · exact Body.foreign_reads (P.body i) fun hd => hN ⟨hd, Nat.lt_of_not_le hle⟩

theorem Res.ok?_eq_none {x : Res α} (h : ∀ a, x ≠ .ok a) : x.ok? = none := by
  cases x with
  | ok a => exact absurd rfl (h a)
  | err _ => rfl
  | panic => rfl

/-! ### What a newer value anywhere does -/

theorem migrateAll_none {g : α → Option β} {a : α} : ∀ {l : List α}, a ∈ l → g a = none → migrateAll g l = none
  | x :: l, h, e => by
    rw [migrateAll]
    rcases List.mem_cons.1 h with rfl | h
    · rw [e]; rfl
    · rw [migrateAll_none h e]
      cases g x <;> rfl

theorem migratePair_none {f : α → Option γ} {g : β → Option δ} {p : α × β} (h : f p.1 = none ∨ g p.2 = none) :
    migratePair f g p = none := by
  unfold migratePair
  rcases h with h | h
  · rw [h]; rfl
  · rw [h]; cases f p.1 <;> rfl

theorem migrateLive_none {alive : F → Bool} {mig : F → V → Option W} {d : V} (h : ∀ f, mig f d = none) :
    ∀ {fs : List F} {vs : List V}, d ∈ vs → migrateLive alive mig fs vs = none
  | [], v :: vs, _ => rfl
  | f :: fs, vs, hd => by
    rw [migrateLive.eq_def]
    dsimp only
    split
    · cases vs with
      | nil => rfl
      | cons v vs =>
        dsimp only
        rcases List.mem_cons.1 hd with rfl | hd
        · rw [h f]; rfl
        · rw [migrateLive_none h hd]
          cases mig f v <;> rfl
    · exact migrateLive_none h hd

section
variable {E E' : Env ι} {g : (i : ι) → E.X i → Option (E'.X i)} {p : (i : ι) → E.X i → Prop}

omit [DecidableEq ι] in
theorem Ty.migrate_none (h : ∀ i v, p i v → g i v = none) (t : Ty ι) :
    ∀ v, t.Holds p v → t.migrate E E' g v = none := by
  induction t with
  | unit | bool | int | float | char | string | path | bytes | uuid | duration | systemTime | notNan =>
    intro v hv; exact nomatch hv
  | option t ih => rintro v ⟨a, rfl, ha⟩; simp only [Ty.migrate, migrateOption, ih a ha]; rfl
  | result t e iht ihe =>
    rintro v (⟨a, rfl, ha⟩ | ⟨a, rfl, ha⟩)
    · simp only [Ty.migrate, migrateResult, iht a ha]; rfl
    · simp only [Ty.migrate, migrateResult, ihe a ha]; rfl
  | bound t ih =>
    rintro v ⟨a, rfl | rfl, ha⟩
    · simp only [Ty.migrate, migrateBound, ih a ha]; rfl
    · simp only [Ty.migrate, migrateBound, ih a ha]; rfl
  | wrap t ih => exact ih
  | pair s t ihs iht => exact fun v hv => migratePair_none (hv.imp (ihs _) (iht _))
  | array _ t ih | vec t ih | vector t ih => rintro l ⟨a, hm, ha⟩; exact migrateAll_none hm (ih a ha)
  | btreeSet t ih | hashSet t ih | binaryHeap t ih =>
    rintro l ⟨a, hm, ha⟩
    simp only [Ty.migrate, migrateAll_none hm (ih a ha)]; rfl
  | btreeMap k t ihk iht | hashMap k t ihk iht =>
    rintro l ⟨a, hm, ha⟩
    simp only [Ty.migrate, migrateAll_none hm (migratePair_none (ha.imp (ihk _) (iht _)))]; rfl
  | ext i => exact h i

omit [DecidableEq ι] in
theorem Ty.migrateIndexed_none (cfg : Cfg) (h : ∀ i v, p i v → g i v = none) (t : Ty ι) :
    ∀ v, t.Holds p v → t.migrateIndexed cfg E E' g v = none := by
  have hm := Ty.migrate_none (E := E) (E' := E') h
  cases t with
  | btreeSet t | hashSet t =>
    rintro l ⟨a, ha, hp⟩
    simp only [Ty.migrateIndexed, migrateAll_none (mem_byBytes.2 ha) (hm _ a hp)]; rfl
  | btreeMap k t | hashMap k t =>
    rintro l ⟨a, ha, hp⟩
    simp only [Ty.migrateIndexed, migrateAll_none (mem_byBytes.2 ha) (migratePair_none (hp.imp (hm _ _) (hm _ _)))]; rfl
  | _ => exact hm _

end

theorem Field.migrateValue_none {K : ι → Kind} {cfg : Cfg} {I I' : Impls K} {n m : Nat}
    {c : (i : ι) → Codec (Values K n i)} {c' : (i : ι) → Codec (Values K m i)}
    {g : (i : ι) → Values K n i → Option (Values K m i)} {p : (i : ι) → Values K n i → Prop}
    (h : ∀ i v, p i v → g i v = none) (b : Bool) {d : DynAt K n} (hd : d.1.Holds p d.2) (f : Field K) :
    f.migrateValue cfg I I' n m c c' g b d = none := by
  unfold Field.migrateValue Dyn.proj
  obtain ⟨t, v⟩ := d
  by_cases ht : t = f.ty
  · subst ht
    rw [dif_pos rfl]
    dsimp only
    split
    · rw [Ty.migrateIndexed_none (E := I.env n c) (E' := I'.env m c') cfg h _ v hd]; rfl
    · rw [Ty.migrate_none (E := I.env n c) (E' := I'.env m c') h _ v hd]; rfl
  · rw [dif_neg ht]

theorem Body.migrate_none {K : ι → Kind} {cfg : Cfg} {I I' : Impls K} {n m : Nat}
    {c : (i : ι) → Codec (Values K n i)} {c' : (i : ι) → Codec (Values K m i)}
    {g : (i : ι) → Values K n i → Option (Values K m i)} {p : (i : ι) → Values K n i → Prop}
    (h : ∀ i v, p i v → g i v = none) {e : Entry} {tgt : Nat} : {k : Kind} → (body : Body K k) →
    (v : k.values (DynAt K n)) → (∃ d : DynAt K n, d ∈ k.fieldValues v ∧ d.1.Holds p d.2) →
    body.migrate cfg I I' n m c c' g e tgt v = none
  | _, .struct fs, vs, ⟨d, hd, hp⟩ => by
    have := migrateLive_none (alive := fun f : Field K => f.existsAt e.revision) (fs := fs) (vs := vs)
      (Field.migrateValue_none (cfg := cfg) (I := I) (I' := I') (c := c) (c' := c') h e.optimised hp) hd
    unfold Body.migrate
    dsimp only
    rw [this]
    rfl
  | _, .enum vs, x, ⟨d, hd, hp⟩ => by
    have hd : d ∈ x.fields := hd
    unfold Body.migrate
    dsimp only
    cases (vs.filter fun v => v.existsAt e.revision).find? fun v => v.ident == x.variant with
    | none => rfl
    | some v =>
      rw [Option.bind_some, migrateLive_none (Field.migrateValue_none h _ hp) hd]
      rfl
  | _, .foreign _, _, ⟨d, hd, _⟩ => nomatch hd

theorem Program.migrateTo_none (cfg : Cfg) (P : Program ι) (I I' : Impls P.kind) (s r : ι → Nat) {j : ι}
    (hj : P.Newer s r j) : ∀ (n m : Nat) (i : ι) (v : Values P.kind n i), P.Within j n i v →
    P.migrateTo cfg I I' s r n m i v = none
  | _ + 1, 0, _, _, _ => rfl
  | n + 1, m + 1, i, v, h => by
    by_cases hN : P.Newer s r i
    · exact if_pos hN
    · refine (if_neg hN).trans ?_
      rcases h with rfl | h
      · exact absurd hj hN
      · exact Body.migrate_none (P.migrateTo_none cfg I I' s r hj n m) _ v h

end Revision
