import Verif.Proofs.Path
import Verif.Proofs.Program
import Verif.Spec.PathOld

/-! Helper lemmas: following paths through data of earlier revisions, the supported types. -/

namespace Revision

/-- On values serialised by `o` the reader gives what `f` says of the migrated value. -/
def Rd.FindsM {α α' β : Type} (o : Codec α) (mig : α → Option α') (m : Rd (Option β)) (f : α' → Option β) : Prop :=
  ∀ v b v', o.valid v → o.enc v = .ok b → mig v = some v' → ∀ t, ∃ r, m (b ++ t) = .ok (f v', r)

/-- The same for a part that has been reached. -/
def Get.FindsM {α α' β : Type} (o : Codec α) (mig : α → Option α') (f : α' → Option β) : Get α' β → Prop
  | .decode out => ∀ v, f v = some (out v)
  | .walk m => Rd.FindsM o mig m f

section
variable {α α' β : Type} {o : Codec α} {n : Codec α'} {mig : α → Option α'}

theorem Codec.Reads.read (h : o.Reads false n mig) {v b v'} (hv : o.valid v) (hb : o.enc v = .ok b)
    (hm : mig v = some v') (t : Bytes) : n.dec (b ++ t) = .ok (v', t) :=
  Res.ok?_eq_some.1 (by rw [h.dec v b hv hb t, hm]; rfl)

theorem Codec.Reads.pass (h : o.Reads false n mig) {v b} (hv : o.valid v) (hb : o.enc v = .ok b) (t : Bytes) :
    n.skip (b ++ t) = .ok ((), t) := (h.skip v b hv hb t).strict

theorem Get.read_findsM (h : o.Reads false n mig) {f : α' → Option β} {g : Get α' β}
    (hg : g.FindsM o mig f) : Rd.FindsM o mig (g.read n) f := by
  cases g with
  | walk m => exact hg
  | decode out =>
    intro v b v' hv hb hm t
    simp only [Get.read]
    rw [Rd.bind_of_ok (h.read hv hb hm t), hg v']
    exact ⟨t, rfl⟩

theorem Rd.FindsM.none (o : Codec α) (mig : α → Option α') :
    Rd.FindsM o mig (Pure.pure Option.none : Rd (Option β)) fun _ => Option.none :=
  fun _ b _ _ _ _ t => ⟨b ++ t, rfl⟩

end

/-! ### Migrated lists -/

section
variable {α β γ δ : Type}

theorem migrateAll_cons {g : α → Option β} {a : α} {l : List α} {l' : List β}
    (h : migrateAll g (a :: l) = some l') : ∃ b m, g a = some b ∧ migrateAll g l = some m ∧ l' = b :: m := by
  simp only [migrateAll, Option.bind_eq_bind, Option.bind_eq_some_iff] at h
  obtain ⟨b, hb, m, hm, h⟩ := h
  cases h
  exact ⟨b, m, hb, hm, rfl⟩

theorem migratePair_some {f : α → Option γ} {g : β → Option δ} {p : α × β} {q : γ × δ}
    (h : migratePair f g p = some q) : f p.1 = some q.1 ∧ g p.2 = some q.2 := by
  simp only [migratePair, Option.bind_eq_bind, Option.bind_eq_some_iff] at h
  obtain ⟨b, hb, m, hm, h⟩ := h
  cases h
  exact ⟨hb, hm⟩

theorem migrateAll_getElem {g : α → Option β} : ∀ {l : List α} {l' : List β}, migrateAll g l = some l' →
    ∀ (i : Nat) {y : β}, l'[i]? = some y → ∃ x, l[i]? = some x ∧ g x = some y
  | [], l', h, i, y, hy => by cases h; simp at hy
  | a :: l, l', h, i, y, hy => by
    obtain ⟨b, m, hb, hm, rfl⟩ := migrateAll_cons h
    cases i with
    | zero => exact ⟨a, rfl, by simpa using hb.trans (by simpa using hy)⟩
    | succ i => exact migrateAll_getElem hm i (by simpa using hy)

theorem migrateAll_mem {g : α → Option β} {l : List α} {l' : List β} (h : migrateAll g l = some l') {y : β}
    (hy : y ∈ l') : ∃ x ∈ l, g x = some y := by
  obtain ⟨i, hi, rfl⟩ := List.getElem_of_mem hy
  obtain ⟨x, hx, hg⟩ := migrateAll_getElem h i (List.getElem?_eq_getElem hi)
  exact ⟨x, List.mem_of_getElem? hx, hg⟩

theorem migrateAll_mem' {g : α → Option β} : ∀ {l : List α} {l' : List β}, migrateAll g l = some l' →
    ∀ {x : α}, x ∈ l → ∃ y ∈ l', g x = some y
  | a :: l, l', h, x, hx => by
    obtain ⟨b, m, hb, hm, rfl⟩ := migrateAll_cons h
    rcases List.mem_cons.1 hx with rfl | hx
    · exact ⟨b, List.mem_cons_self, hb⟩
    · obtain ⟨y, hy, hg⟩ := migrateAll_mem' hm hx
      exact ⟨y, List.mem_cons_of_mem _ hy, hg⟩

theorem migrateAll_pairwise {g : α → Option β} {R : α → α → Prop} {R' : β → β → Prop}
    (hR : ∀ a b a' b', g a = some a' → g b = some b' → R a b → R' a' b') :
    ∀ {l : List α} {l' : List β}, migrateAll g l = some l' → l.Pairwise R → l'.Pairwise R'
  | [], l', h, _ => by cases h; exact .nil
  | a :: l, l', h, hp => by
    obtain ⟨b, m, hb, hm, rfl⟩ := migrateAll_cons h
    cases hp with
    | cons h1 h2 =>
    refine .cons (fun y hy => ?_) (migrateAll_pairwise hR hm h2)
    obtain ⟨x, hx, hg⟩ := migrateAll_mem hm hy
    exact hR _ _ _ _ hb hg (h1 x hx)

end

/-! ### Sequences and maps -/

section
variable {κ κ' α α' β : Type} {o : Codec α} {n : Codec α'} {mig : α → Option α'} {ko : Codec κ} {kn : Codec κ'}
  {kmig : κ → Option κ'}

theorem seqAt_old (h : o.Reads false n mig) {item : Rd (Option β)} {f : α' → Option β}
    (hi : Rd.FindsM o mig item f) (t : Bytes) : ∀ (k : Nat) (l : List α) (b : Bytes) (l' : List α'),
    (∀ a ∈ l, o.valid a) → encList o.enc l = .ok b → migrateAll mig l = some l' →
    ∃ r, seqAt n.skip item k ⟨l.length⟩ (b ++ t) = .ok (l'[k]?.bind f, r)
  | k, [], b, l', _, h, hm => by
    cases hm
    simp [encList] at h
    subst h
    cases k <;> exact ⟨t, by simp [seqAt, SeqWalker.item]⟩
  | k, a :: l, b, l', hv, he, hm => by
    obtain ⟨a', m', ha', hm', rfl⟩ := migrateAll_cons hm
    simp only [encList] at he
    obtain ⟨x, hx, he⟩ := Res.bind_eq_ok.1 he
    obtain ⟨y, hy, he⟩ := Res.bind_eq_ok.1 he
    simp at he
    subst he
    have hva := hv a (by simp)
    cases k with
    | zero =>
      obtain ⟨r, hr⟩ := hi a x a' hva hx ha' (y ++ t)
      refine ⟨r, ?_⟩
      simp only [seqAt, SeqWalker.item, List.length_cons, if_neg (Nat.succ_ne_zero _), Rd.bind_assoc,
        List.append_assoc]
      rw [Rd.bind_of_ok hr]
      simp
    | succ k =>
      obtain ⟨r, hr⟩ := seqAt_old h hi t k l y m' (fun a ha => hv a (by simp [ha])) hy hm'
      refine ⟨r, ?_⟩
      simp only [seqAt, SeqWalker.item, List.length_cons, if_neg (Nat.succ_ne_zero _), Rd.bind_assoc,
        List.append_assoc]
      rw [Rd.bind_of_ok (h.pass hva hx (y ++ t))]
      simpa using hr

theorem mapAt_old (hk : ko.Reads false kn kmig) (h : o.Reads false n mig)
    {value : Rd (Option β)} {f : α' → Option β} (hi : Rd.FindsM o mig value f) (t : Bytes) :
    ∀ (k : Nat) (l : List (κ × α)) (b : Bytes) (l' : List (κ' × α')), (∀ a ∈ l, (pairC ko o).valid a) →
    encList (pairC ko o).enc l = .ok b → migrateAll (migratePair kmig mig) l = some l' →
    ∃ r, mapAt kn n value k ⟨l.length⟩ (b ++ t) = .ok (l'[k]?.bind fun e => f e.2, r)
  | k, [], b, l', _, h, hm => by
    cases hm
    simp [encList] at h
    subst h
    cases k <;> exact ⟨t, by simp [mapAt, MapWalker.nextEntry]⟩
  | k, a :: l, b, l', hv, he, hm => by
    obtain ⟨a', m', ha', hm', rfl⟩ := migrateAll_cons hm
    obtain ⟨hmk, hmv⟩ := migratePair_some ha'
    simp only [encList] at he
    obtain ⟨x, hx, he⟩ := Res.bind_eq_ok.1 he
    obtain ⟨y, hy, he⟩ := Res.bind_eq_ok.1 he
    simp at he
    subst he
    simp only [pairC] at hx
    obtain ⟨x1, hx1, hx⟩ := Res.bind_eq_ok.1 hx
    obtain ⟨x2, hx2, hx⟩ := Res.bind_eq_ok.1 hx
    simp at hx
    subst hx
    have hva := hv a (by simp)
    cases k with
    | zero =>
      obtain ⟨r, hr⟩ := hi a.2 x2 a'.2 hva.2 hx2 hmv (y ++ t)
      refine ⟨r, ?_⟩
      simp only [mapAt, MapWalker.nextEntry, List.length_cons, if_neg (Nat.succ_ne_zero _), MapEntry.key,
        MapEntry.value, MapEntry.expectCursor, ne_eq, not_true, if_false, Rd.lift_ok, Rd.pure_bind, Rd.bind_assoc,
        List.append_assoc]
      rw [Rd.bind_of_ok (hk.pass hva.1 hx1 _), Rd.bind_of_ok hr]
      simp
    | succ k =>
      obtain ⟨r, hr⟩ := mapAt_old hk h hi t k l y m' (fun a ha => hv a (by simp [ha])) hy hm'
      refine ⟨r, ?_⟩
      unfold mapAt
      simp only [MapWalker.nextEntry, List.length_cons, if_neg (Nat.succ_ne_zero _), MapEntry.skipPair, MapEntry.key,
        MapEntry.value, MapEntry.expectCursor, ne_eq, not_true, if_false, Rd.lift_ok, Rd.pure_bind, Rd.bind_assoc,
        List.append_assoc]
      rw [Rd.bind_of_ok (hk.pass hva.1 hx1 _), Rd.bind_of_ok (h.pass hva.2 hx2 _)]
      simpa using hr

theorem mapKey_old (hk : ko.Reads false kn kmig) (h : o.Reads false n mig)
    {value : Rd (Option β)} {f : α' → Option β} (hi : Rd.FindsM o mig value f) (kb t : Bytes) :
    ∀ (l : List (κ × α)) (b : Bytes) (l' : List (κ' × α')), (∀ a ∈ l, (pairC ko o).valid a) →
    encList (pairC ko o).enc l = .ok b → migrateAll (migratePair kmig mig) l = some l' →
    ∃ r, mapKey kn n value kb l.length ⟨l.length⟩ (b ++ t) =
      .ok ((l'.find? fun e => kn.enc e.1 = .ok kb).bind fun e => f e.2, r)
  | [], b, l', _, h, hm => by cases hm; exact ⟨b ++ t, rfl⟩
  | a :: l, b, l', hv, he, hm => by
    obtain ⟨a', m', ha', hm', rfl⟩ := migrateAll_cons hm
    obtain ⟨hmk, hmv⟩ := migratePair_some ha'
    simp only [encList] at he
    obtain ⟨x, hx, he⟩ := Res.bind_eq_ok.1 he
    obtain ⟨y, hy, he⟩ := Res.bind_eq_ok.1 he
    simp at he
    subst he
    simp only [pairC] at hx
    obtain ⟨x1, hx1, hx⟩ := Res.bind_eq_ok.1 hx
    obtain ⟨x2, hx2, hx⟩ := Res.bind_eq_ok.1 hx
    simp at hx
    subst hx
    have hva := hv a (by simp)
    simp only [mapKey, MapWalker.nextEntry, List.length_cons, if_neg (Nat.succ_ne_zero _), MapEntry.key,
      MapEntry.expectCursor, ne_eq, not_true, if_false, Rd.lift_ok, Rd.pure_bind, Rd.bind_assoc,
      List.append_assoc]
    rw [Rd.bind_of_ok (hk.read hva.1 hx1 hmk _)]
    by_cases hq : kn.enc a'.1 = .ok kb
    · obtain ⟨r, hr⟩ := hi a.2 x2 a'.2 hva.2 hx2 hmv (y ++ t)
      refine ⟨r, ?_⟩
      rw [if_pos hq, List.find?_cons_of_pos (by simpa using hq)]
      simp only [MapEntry.value, MapEntry.expectCursor, ne_eq, not_true, if_false, Rd.lift_ok, Rd.pure_bind,
        Rd.bind_assoc]
      rw [Rd.bind_of_ok hr]
      rfl
    · obtain ⟨r, hr⟩ := mapKey_old hk h hi kb t l y m' (fun a ha => hv a (by simp [ha])) hy hm'
      refine ⟨r, ?_⟩
      rw [if_neg hq, List.find?_cons_of_neg (by simpa using hq)]
      simp only [MapEntry.value, MapEntry.expectCursor, ne_eq, not_true, if_false, Rd.lift_ok, Rd.pure_bind,
        Rd.bind_assoc]
      rw [Rd.bind_of_ok (h.pass hva.2 hx2 _)]
      simpa using hr

end

variable {ι : Type}

/-- Migrated values of type `t` compare as they did. -/
def Ty.KeepsOrder {E E' : Env ι} (g : (i : ι) → E.X i → Option (E'.X i)) (t : Ty ι) : Prop :=
  ∀ a b a' b', t.migrate E E' g a = some a' → t.migrate E E' g b = some b' → E'.cmp t a' b' = E.cmp t a b

/-- Migrated values of type `t` are equal if they were. -/
def Ty.KeepsEq {E E' : Env ι} (g : (i : ι) → E.X i → Option (E'.X i)) (t : Ty ι) : Prop :=
  ∀ a b a' b', t.migrate E E' g a = some a' → t.migrate E E' g b = some b' → E'.eq t a' b' = E.eq t a b

theorem Ty.walkStep_old {β : Type} (cfg : Cfg) {E E' : Env ι} (htrans : ∀ t, Std.TransCmp (E'.cmp t)) (hcap : E.CapLe E')
    {g : (i : ι) → E.X i → Option (E'.X i)} (hx : ∀ i, (E.extC i).Reads false (E'.extC i) (g i))
    {get : (t : Ty ι) → Get (t.denote E'.X) β} {ext : ι → Rd (Option β)}
    {inner : (t : Ty ι) → t.denote E'.X → Option β} {einner : (i : ι) → E'.X i → Option β} {Op Or Eq : Ty ι → Prop}
    {Ox : ι → Prop} (s : Step) (hOr : ∀ t, Or t → t.KeepsOrder g) (hEq : ∀ t, Eq t → t.KeepsEq g)
    (hget : ∀ t, Op t → (get t).FindsM (t.codec cfg E) (t.migrate E E' g) (inner t))
    (hext : ∀ i, Ox i → Rd.FindsM (E.extC i) (g i) (ext i) (einner i)) (t : Ty ι)
    (ho : t.openStepAt cfg Or Eq Op Ox s) :
    Rd.FindsM (t.codec cfg E) (t.migrate E E' g) (t.walkStep cfg E' get ext s)
      (t.stepInto (fun t => (t.codec cfg E').enc) inner einner s) := by
  have hf := fun t : Ty ι => t.codec_reads (w := false) cfg hcap g hx
  have hseq : ∀ (coll t : Ty ι) (v : List (t.denote E.X)) (v' : List (t.denote E'.X)) (b : Bytes),
      coll.walk cfg = (do return .seq (← SeqWalker.new cfg)) → (∀ k, s = .elem k → Op t) →
      v.length < 2 ^ 64 → (∀ a ∈ v, (t.codec cfg E).valid a) →
      (do
        let b ← encList (t.codec cfg E).enc v
        pure (encLen cfg v.length ++ b)) = .ok b →
      ((∃ k, s = .elem k) → migrateAll (t.migrate E E' g) v = some v') →
      ∀ r, ∃ r', Ty.walkStep.seqStep cfg E' get s coll t (b ++ r) = .ok ((match s with
        | .elem k => v'[k]?.bind (inner t)
        | _ => none), r') := by
    intro coll t v v' b hw ho hlen hval hb hm r
    unfold Ty.walkStep.seqStep
    cases s with
    | elem k =>
      obtain ⟨x, hx, hb⟩ := Res.bind_eq_ok.1 hb
      simp at hb
      subst hb
      obtain ⟨r', hr⟩ := seqAt_old (hf t) (Get.read_findsM (hf t) (hget t (ho k rfl))) r k v x v' hval hx (hm ⟨k, rfl⟩)
      refine ⟨r', ?_⟩
      simp only [hw, SeqWalker.new, Rd.bind_assoc, Rd.pure_bind, List.append_assoc]
      rw [Rd.bind_of_ok (readLen_encLen cfg hlen _)]
      exact hr
    | _ => exact ⟨_, rfl⟩
  have hmap : ∀ (coll k t : Ty ι) (v : List (k.denote E.X × t.denote E.X)) (v' : List (k.denote E'.X × t.denote E'.X))
      (b : Bytes),
      coll.walk cfg = (do return .map (← MapWalker.new cfg)) →
      ((∀ k, s = .value k → Op t) ∧ ∀ b, s = .key b → Op t) →
      v.length < 2 ^ 64 → (∀ a ∈ v, (pairC (k.codec cfg E) (t.codec cfg E)).valid a) →
      (do
        let b ← encList (pairC (k.codec cfg E) (t.codec cfg E)).enc v
        pure (encLen cfg v.length ++ b)) = .ok b →
      ((∃ j, s = .value j) ∨ (∃ b, s = .key b) →
        migrateAll (migratePair (k.migrate E E' g) (t.migrate E E' g)) v = some v') →
      ∀ r, ∃ r', Ty.walkStep.mapStep cfg E' get s coll k t (b ++ r) = .ok ((match s with
        | .value j => v'[j]?.bind fun e => inner t e.2
        | .key kb => (v'.find? fun e => (k.codec cfg E').enc e.1 = .ok kb).bind fun e => inner t e.2
        | _ => none), r') := by
    intro coll k t v v' b hw ho hlen hval hb hm r
    unfold Ty.walkStep.mapStep
    cases s with
    | value j =>
      obtain ⟨x, hx, hb⟩ := Res.bind_eq_ok.1 hb
      simp at hb
      subst hb
      obtain ⟨r', hr⟩ := mapAt_old (hf k) (hf t) (Get.read_findsM (hf t) (hget t (ho.1 j rfl))) r j v x v' hval hx
        (hm (.inl ⟨j, rfl⟩))
      refine ⟨r', ?_⟩
      simp only [hw, MapWalker.new, Rd.bind_assoc, Rd.pure_bind, List.append_assoc]
      rw [Rd.bind_of_ok (readLen_encLen cfg hlen _)]
      exact hr
    | key kb =>
      obtain ⟨x, hx, hb⟩ := Res.bind_eq_ok.1 hb
      simp at hb
      subst hb
      obtain ⟨r', hr⟩ := mapKey_old (hf k) (hf t) (Get.read_findsM (hf t) (hget t (ho.2 kb rfl))) kb r v x v' hval hx
        (hm (.inr ⟨kb, rfl⟩))
      refine ⟨r', ?_⟩
      simp only [hw, MapWalker.new, Rd.bind_assoc, Rd.pure_bind, List.append_assoc]
      rw [Rd.bind_of_ok (readLen_encLen cfg hlen _)]
      exact hr
    | _ => exact ⟨_, rfl⟩
  induction t with
  | wrap t ih => exact fun v b v' hv hb hm r => ih ho v b v' hv hb hm r
  | ext i => exact hext i ho
  | option t ih =>
    cases s with
    | some =>
      intro v b v' hv hb hm r
      simp only [Ty.walkStep, Ty.walk, Rd.bind_assoc, Rd.pure_bind]
      have hg := hget t (ho rfl)
      cases v with
      | none =>
        cases hm
        simp only [Ty.codec, optionC] at hb
        cases hb
        have h3 : OptionWalker.new cfg (encInt cfg .u8 0 ++ r) = .ok (⟨0⟩, r) := by
          rw [OptionWalker.new, Rd.bind_of_ok (decInt_encInt cfg .u8 0 _)]; rfl
        rw [Rd.bind_of_ok h3]
        cases get t <;> exact ⟨r, rfl⟩
      | some a =>
        simp only [Ty.migrate, migrateOption, Option.map_eq_some_iff] at hm
        obtain ⟨a', ha', rfl⟩ := hm
        simp only [Ty.codec, optionC] at hb
        obtain ⟨x, hx, hb⟩ := Res.bind_eq_ok.1 hb
        simp only [Res.pure_def, Res.ok.injEq] at hb
        subst hb
        have h3 : OptionWalker.new cfg (encInt cfg .u8 1 ++ (x ++ r)) = .ok (⟨1⟩, x ++ r) := by
          rw [OptionWalker.new, Rd.bind_of_ok (decInt_encInt cfg .u8 1 _)]; rfl
        rw [List.append_assoc, Rd.bind_of_ok h3]
        cases hgt : get t with
        | walk m =>
          rw [hgt] at hg
          exact hg a x a' hv hx ha' r
        | decode out =>
          rw [hgt] at hg
          refine ⟨r, ?_⟩
          have : OptionWalker.decode (t.codec cfg E') ⟨1⟩ (x ++ r) = .ok (Option.some a', r) := by
            simp only [OptionWalker.decode]
            rw [if_neg (by decide), if_pos trivial, Rd.bind_of_ok ((hf t).read hv hx ha' r)]
            rfl
          simp only
          rw [Rd.bind_of_ok this]
          simp only [Ty.stepInto, hg a']
          rfl
    | _ => exact fun v b v' _ _ _ r => ⟨b ++ r, by cases v' <;> rfl⟩
  | result t e iht ihe =>
    cases s with
    | ok =>
      intro v b v' hv hb hm r
      simp only [Ty.walkStep, Ty.walk, Rd.bind_assoc, Rd.pure_bind]
      cases v with
      | ok a =>
        simp only [Ty.migrate, migrateResult, Option.map_eq_some_iff] at hm
        obtain ⟨a', ha', rfl⟩ := hm
        simp only [Ty.codec, resultC] at hb
        obtain ⟨x, hx, hb⟩ := Res.bind_eq_ok.1 hb
        simp only [Res.pure_def, Res.ok.injEq] at hb
        subst hb
        have h3 : ResultWalker.new cfg (encU32 cfg 0 ++ (x ++ r)) = .ok (⟨0⟩, x ++ r) := by
          rw [ResultWalker.new, Rd.bind_of_ok (readU32_encU32 cfg (by decide) _)]; rfl
        rw [List.append_assoc, Rd.bind_of_ok h3]
        exact Get.read_findsM (hf t) (hget t (ho.1 rfl)) a x a' hv hx ha' r
      | error a =>
        simp only [Ty.migrate, migrateResult, Option.map_eq_some_iff] at hm
        obtain ⟨a', ha', rfl⟩ := hm
        simp only [Ty.codec, resultC] at hb
        obtain ⟨x, hx, hb⟩ := Res.bind_eq_ok.1 hb
        simp only [Res.pure_def, Res.ok.injEq] at hb
        subst hb
        have h3 : ResultWalker.new cfg (encU32 cfg 1 ++ (x ++ r)) = .ok (⟨1⟩, x ++ r) := by
          rw [ResultWalker.new, Rd.bind_of_ok (readU32_encU32 cfg (by decide) _)]; rfl
        rw [List.append_assoc, Rd.bind_of_ok h3]
        exact ⟨_, rfl⟩
    | err =>
      intro v b v' hv hb hm r
      simp only [Ty.walkStep, Ty.walk, Rd.bind_assoc, Rd.pure_bind]
      cases v with
      | ok a =>
        simp only [Ty.migrate, migrateResult, Option.map_eq_some_iff] at hm
        obtain ⟨a', ha', rfl⟩ := hm
        simp only [Ty.codec, resultC] at hb
        obtain ⟨x, hx, hb⟩ := Res.bind_eq_ok.1 hb
        simp only [Res.pure_def, Res.ok.injEq] at hb
        subst hb
        have h3 : ResultWalker.new cfg (encU32 cfg 0 ++ (x ++ r)) = .ok (⟨0⟩, x ++ r) := by
          rw [ResultWalker.new, Rd.bind_of_ok (readU32_encU32 cfg (by decide) _)]; rfl
        rw [List.append_assoc, Rd.bind_of_ok h3]
        exact ⟨_, rfl⟩
      | error a =>
        simp only [Ty.migrate, migrateResult, Option.map_eq_some_iff] at hm
        obtain ⟨a', ha', rfl⟩ := hm
        simp only [Ty.codec, resultC] at hb
        obtain ⟨x, hx, hb⟩ := Res.bind_eq_ok.1 hb
        simp only [Res.pure_def, Res.ok.injEq] at hb
        subst hb
        have h3 : ResultWalker.new cfg (encU32 cfg 1 ++ (x ++ r)) = .ok (⟨1⟩, x ++ r) := by
          rw [ResultWalker.new, Rd.bind_of_ok (readU32_encU32 cfg (by decide) _)]; rfl
        rw [List.append_assoc, Rd.bind_of_ok h3]
        exact Get.read_findsM (hf e) (hget e (ho.2 rfl)) a x a' hv hx ha' r
    | _ => exact fun v b v' _ _ _ r => ⟨b ++ r, by cases v' <;> rfl⟩
  | vec t ih =>
    intro v b v' hv hb hm r
    by_cases hs : ∃ k, s = .elem k
    · obtain ⟨k, rfl⟩ := hs
      have hbk := (ho k rfl).1
      simp only [Ty.codec] at hv hb
      rw [vecOf_elementwise hbk] at hv hb
      exact hseq (.vec t) t v v' b (by simp [Ty.walk, hbk]) (fun k h => (ho k h).2) hv.1 hv.2.2 hb (fun _ => hm) r
    · refine ⟨b ++ r, ?_⟩
      cases s <;> first
        | rfl
        | exact absurd ⟨_, rfl⟩ hs
  | vector t ih =>
    exact fun v b v' hv hb hm r => hseq _ t v v' b rfl ho hv.1 hv.2.2.1 hb (fun _ => hm) r
  | btreeSet t ih =>
    intro v b v' hv hb hm r
    refine hseq _ t v v' b rfl (fun k h => (ho k h).2) hv.1 hv.2.2.1 hb (fun ⟨k, hk⟩ => ?_) r
    obtain ⟨l, hl, rfl⟩ := Option.map_eq_some_iff.1 hm
    have := htrans t
    rw [btreeBuild_fix (E'.cmp t) id l]
    · exact hl
    · rw [List.map_id]
      exact migrateAll_pairwise (fun a b a' b' ha hb h => (hOr t (ho k hk).1 a b a' b' ha hb).trans h) hl hv.2.2.2
  | hashSet t ih =>
    intro v b v' hv hb hm r
    refine hseq _ t v v' b rfl (fun k h => (ho k h).2) hv.1 hv.2.2.1 hb (fun ⟨k, hk⟩ => ?_) r
    obtain ⟨l, hl, rfl⟩ := Option.map_eq_some_iff.1 hm
    rw [hashSet_foldl_fix l []]
    · exact hl
    · rw [List.nil_append]
      exact migrateAll_pairwise (fun a b a' b' ha hb h => (hEq t (ho k hk).1 a b a' b' ha hb).trans h) hl hv.2.2.2
  | binaryHeap t ih =>
    intro v b v' hv hb hm r
    refine hseq _ t v v' b rfl (fun k h => (ho k h).2) hv.1 hv.2.2.1 hb (fun ⟨k, hk⟩ => ?_) r
    obtain ⟨l, hl, rfl⟩ := Option.map_eq_some_iff.1 hm
    rw [heap_foldl_fix (E'.cmp t) l []]
    · exact hl
    · rw [List.nil_append]
      intro i x p hi hx hp
      obtain ⟨x', hx', gx⟩ := migrateAll_getElem hl i hx
      obtain ⟨p', hp', gp⟩ := migrateAll_getElem hl _ hp
      rw [hOr t (ho k hk).1 _ _ _ _ gx gp]
      exact hv.2.2.2 i x' p' hi hx' hp'
  | btreeMap k t ihk ihv =>
    intro v b v' hv hb hm r
    refine hmap _ k t v v' b rfl ⟨fun j h => (ho.1 j h).2, fun j h => (ho.2 j h).2⟩ hv.1 hv.2.2.1 hb (fun hs => ?_) r
    have hor : Or k := by
      rcases hs with ⟨j, hj⟩ | ⟨b, hb⟩
      · exact (ho.1 j hj).1
      · exact (ho.2 b hb).1
    obtain ⟨l, hl, rfl⟩ := Option.map_eq_some_iff.1 hm
    have := htrans k
    rw [btreeBuild_fix (E'.cmp k) Prod.fst l]
    · exact hl
    · refine List.pairwise_map.2 (migrateAll_pairwise (fun a b a' b' ha hb h => ?_) hl (List.pairwise_map.1 hv.2.2.2))
      exact (hOr k hor _ _ _ _ (migratePair_some ha).1 (migratePair_some hb).1).trans h
  | hashMap k t ihk ihv =>
    intro v b v' hv hb hm r
    refine hmap _ k t v v' b rfl ⟨fun j h => (ho.1 j h).2, fun j h => (ho.2 j h).2⟩ hv.1 hv.2.2.1 hb (fun hs => ?_) r
    have hor : Eq k := by
      rcases hs with ⟨j, hj⟩ | ⟨b, hb⟩
      · exact (ho.1 j hj).1
      · exact (ho.2 b hb).1
    obtain ⟨l, hl, rfl⟩ := Option.map_eq_some_iff.1 hm
    rw [hash_foldl_fix l []]
    · exact hl
    · rw [List.nil_append]
      refine List.pairwise_map.2 (migrateAll_pairwise (fun a b a' b' ha hb h => ?_) hl (List.pairwise_map.1 hv.2.2.2))
      exact (hEq k hor _ _ _ _ (migratePair_some ha).1 (migratePair_some hb).1).trans h
  | _ => exact Rd.FindsM.none _ _

end Revision
