import Verif.Proofs.ProgramFaithful
import Verif.Proofs.Walk
import Verif.Spec.Path

/-! Helper lemmas: following paths through the supported types. -/

namespace Revision

/-- On serialised values the reader gives what `f` says of the value. -/
def Rd.Finds {α β : Type} (c : Codec α) (m : Rd (Option β)) (f : α → Option β) : Prop :=
  ∀ v b, c.valid v → c.enc v = .ok b → ∀ t, ∃ r, m (b ++ t) = .ok (f v, r)

/-- The same for a part that has been reached. -/
def Get.Finds {α β : Type} (c : Codec α) (f : α → Option β) : Get α β → Prop
  | .decode out => ∀ v, c.valid v → f v = some (out v)
  | .walk m => Rd.Finds c m f

theorem Get.read_finds {α β : Type} {c : Codec α} (hc : c.Faithful) {f : α → Option β} {g : Get α β}
    (h : g.Finds c f) : Rd.Finds c (g.read c) f := by
  cases g with
  | walk m => exact h
  | decode out =>
    intro v b hv hb t
    simp only [Get.read]
    rw [Rd.bind_of_ok (hc.round_trip v b hv hb t), h v hv]
    exact ⟨t, rfl⟩

theorem Rd.Finds.none {α β : Type} (c : Codec α) : Rd.Finds c (Pure.pure Option.none : Rd (Option β)) fun _ => Option.none :=
  fun _ b _ _ t => ⟨b ++ t, rfl⟩

theorem seqAt_enc {α β : Type} {c : Codec α} (hc : c.Faithful) {item : Rd (Option β)} {f : α → Option β}
    (hi : Rd.Finds c item f) (t : Bytes) : ∀ (k : Nat) (l : List α) (b : Bytes), (∀ a ∈ l, c.valid a) →
    encList c.enc l = .ok b → ∃ r, seqAt c.skip item k ⟨l.length⟩ (b ++ t) = .ok (l[k]?.bind f, r)
  | k, [], b, _, h => by
    simp [encList] at h
    subst h
    cases k <;> exact ⟨t, by simp [seqAt, SeqWalker.item]⟩
  | k, a :: l, b, hv, h => by
    simp only [encList] at h
    obtain ⟨x, hx, h⟩ := Res.bind_eq_ok.1 h
    obtain ⟨y, hy, h⟩ := Res.bind_eq_ok.1 h
    simp at h
    subst h
    have hva := hv a (by simp)
    cases k with
    | zero =>
      obtain ⟨r, hr⟩ := hi a x hva hx (y ++ t)
      refine ⟨r, ?_⟩
      simp only [seqAt, SeqWalker.item, List.length_cons, if_neg (Nat.succ_ne_zero _), Rd.bind_assoc,
        List.append_assoc]
      rw [Rd.bind_of_ok hr]
      simp
    | succ k =>
      obtain ⟨r, hr⟩ := seqAt_enc hc hi t k l y (fun a ha => hv a (by simp [ha])) hy
      refine ⟨r, ?_⟩
      simp only [seqAt, SeqWalker.item, List.length_cons, if_neg (Nat.succ_ne_zero _), Rd.bind_assoc,
        List.append_assoc]
      rw [Rd.bind_of_ok (hc.skip_after a x hva hx (y ++ t))]
      simpa using hr

theorem mapAt_enc {κ α β : Type} {kc : Codec κ} {vc : Codec α} (hk : kc.Faithful) (hvc : vc.Faithful)
    {value : Rd (Option β)} {f : α → Option β} (hi : Rd.Finds vc value f) (t : Bytes) :
    ∀ (k : Nat) (l : List (κ × α)) (b : Bytes), (∀ a ∈ l, (pairC kc vc).valid a) →
    encList (pairC kc vc).enc l = .ok b →
    ∃ r, mapAt kc vc value k ⟨l.length⟩ (b ++ t) = .ok (l[k]?.bind fun e => f e.2, r)
  | k, [], b, _, h => by
    simp [encList] at h
    subst h
    cases k <;> exact ⟨t, by simp [mapAt, MapWalker.nextEntry]⟩
  | k, a :: l, b, hv, h => by
    simp only [encList] at h
    obtain ⟨x, hx, h⟩ := Res.bind_eq_ok.1 h
    obtain ⟨y, hy, h⟩ := Res.bind_eq_ok.1 h
    simp at h
    subst h
    simp only [pairC] at hx
    obtain ⟨x1, hx1, hx⟩ := Res.bind_eq_ok.1 hx
    obtain ⟨x2, hx2, hx⟩ := Res.bind_eq_ok.1 hx
    simp at hx
    subst hx
    have hva := hv a (by simp)
    cases k with
    | zero =>
      obtain ⟨r, hr⟩ := hi a.2 x2 hva.2 hx2 (y ++ t)
      refine ⟨r, ?_⟩
      simp only [mapAt, MapWalker.nextEntry, List.length_cons, if_neg (Nat.succ_ne_zero _), MapEntry.key,
        MapEntry.value, MapEntry.expectCursor, ne_eq, not_true, if_false, Rd.lift_ok, Rd.pure_bind, Rd.bind_assoc,
        List.append_assoc]
      rw [Rd.bind_of_ok (hk.skip_after a.1 x1 hva.1 hx1 _), Rd.bind_of_ok hr]
      simp
    | succ k =>
      obtain ⟨r, hr⟩ := mapAt_enc hk hvc hi t k l y (fun a ha => hv a (by simp [ha])) hy
      refine ⟨r, ?_⟩
      unfold mapAt
      simp only [MapWalker.nextEntry, List.length_cons, if_neg (Nat.succ_ne_zero _), MapEntry.skipPair, MapEntry.key,
        MapEntry.value, MapEntry.expectCursor, ne_eq, not_true, if_false, Rd.lift_ok, Rd.pure_bind, Rd.bind_assoc,
        List.append_assoc]
      rw [Rd.bind_of_ok (hk.skip_after a.1 x1 hva.1 hx1 _), Rd.bind_of_ok (hvc.skip_after a.2 x2 hva.2 hx2 _)]
      simpa using hr

theorem mapKey_enc {κ α β : Type} {kc : Codec κ} {vc : Codec α} (hk : kc.Faithful) (hvc : vc.Faithful)
    {value : Rd (Option β)} {f : α → Option β} (hi : Rd.Finds vc value f) (kb t : Bytes) :
    ∀ (l : List (κ × α)) (b : Bytes), (∀ a ∈ l, (pairC kc vc).valid a) →
    encList (pairC kc vc).enc l = .ok b →
    ∃ r, mapKey kc vc value kb l.length ⟨l.length⟩ (b ++ t) =
      .ok ((l.find? fun e => kc.enc e.1 = .ok kb).bind fun e => f e.2, r)
  | [], b, _, h => ⟨b ++ t, rfl⟩
  | a :: l, b, hv, h => by
    simp only [encList] at h
    obtain ⟨x, hx, h⟩ := Res.bind_eq_ok.1 h
    obtain ⟨y, hy, h⟩ := Res.bind_eq_ok.1 h
    simp at h
    subst h
    simp only [pairC] at hx
    obtain ⟨x1, hx1, hx⟩ := Res.bind_eq_ok.1 hx
    obtain ⟨x2, hx2, hx⟩ := Res.bind_eq_ok.1 hx
    simp at hx
    subst hx
    have hva := hv a (by simp)
    simp only [mapKey, MapWalker.nextEntry, List.length_cons, if_neg (Nat.succ_ne_zero _), MapEntry.key,
      MapEntry.expectCursor, ne_eq, not_true, if_false, Rd.lift_ok, Rd.pure_bind, Rd.bind_assoc,
      List.append_assoc]
    rw [Rd.bind_of_ok (hk.round_trip a.1 x1 hva.1 hx1 _)]
    by_cases he : kc.enc a.1 = .ok kb
    · obtain ⟨r, hr⟩ := hi a.2 x2 hva.2 hx2 (y ++ t)
      refine ⟨r, ?_⟩
      rw [if_pos he, List.find?_cons_of_pos (by simpa using he)]
      simp only [MapEntry.value, MapEntry.expectCursor, ne_eq, not_true, if_false, Rd.lift_ok, Rd.pure_bind,
        Rd.bind_assoc]
      rw [Rd.bind_of_ok hr]
      rfl
    · obtain ⟨r, hr⟩ := mapKey_enc hk hvc hi kb t l y (fun a ha => hv a (by simp [ha])) hy
      refine ⟨r, ?_⟩
      rw [if_neg he, List.find?_cons_of_neg (by simpa using he)]
      simp only [MapEntry.value, MapEntry.expectCursor, ne_eq, not_true, if_false, Rd.lift_ok, Rd.pure_bind,
        Rd.bind_assoc]
      rw [Rd.bind_of_ok (hvc.skip_after a.2 x2 hva.2 hx2 _)]
      simpa using hr

variable {ι : Type}

theorem Ty.walkStep_finds {β : Type} (cfg : Cfg) {E : Env ι} (hx : ∀ i, (E.extC i).Faithful)
    {get : (t : Ty ι) → Get (t.denote E.X) β} {ext : ι → Rd (Option β)}
    {inner : (t : Ty ι) → t.denote E.X → Option β} {einner : (i : ι) → E.X i → Option β} {Op : Ty ι → Prop}
    {Ox : ι → Prop} (s : Step)
    (hget : ∀ t, Op t → (get t).Finds (t.codec cfg E) (inner t))
    (hext : ∀ i, Ox i → Rd.Finds (E.extC i) (ext i) (einner i)) (t : Ty ι) (ho : t.openStep cfg Op Ox s) :
    Rd.Finds (t.codec cfg E) (t.walkStep cfg E get ext s) (t.stepInto (fun t => (t.codec cfg E).enc) inner einner s) := by
  have hf := fun t : Ty ι => t.codec_faithful_of cfg hx
  have hseq : ∀ (coll t : Ty ι) (v : List (t.denote E.X)) (b : Bytes),
      coll.walk cfg = (do return .seq (← SeqWalker.new cfg)) → (∀ k, s = .elem k → Op t) →
      v.length < 2 ^ 64 → (∀ a ∈ v, (t.codec cfg E).valid a) →
      (do
        let b ← encList (t.codec cfg E).enc v
        pure (encLen cfg v.length ++ b)) = .ok b →
      ∀ r, ∃ r', Ty.walkStep.seqStep cfg E get s coll t (b ++ r) = .ok ((match s with
        | .elem k => v[k]?.bind (inner t)
        | _ => none), r') := by
    intro coll t v b hw ho hlen hval hb r
    unfold Ty.walkStep.seqStep
    cases s with
    | elem k =>
      obtain ⟨x, hx, hb⟩ := Res.bind_eq_ok.1 hb
      simp at hb
      subst hb
      obtain ⟨r', hr⟩ := seqAt_enc (hf t) (Get.read_finds (hf t) (hget t (ho k rfl))) r k v x hval hx
      refine ⟨r', ?_⟩
      simp only [hw, SeqWalker.new, Rd.bind_assoc, Rd.pure_bind, List.append_assoc]
      rw [Rd.bind_of_ok (readLen_encLen cfg hlen _)]
      exact hr
    | _ => exact ⟨_, rfl⟩
  have hmap : ∀ (coll k t : Ty ι) (v : List (k.denote E.X × t.denote E.X)) (b : Bytes),
      coll.walk cfg = (do return .map (← MapWalker.new cfg)) →
      ((∀ k, s = .value k → Op t) ∧ ∀ b, s = .key b → Op t) →
      v.length < 2 ^ 64 → (∀ a ∈ v, (pairC (k.codec cfg E) (t.codec cfg E)).valid a) →
      (do
        let b ← encList (pairC (k.codec cfg E) (t.codec cfg E)).enc v
        pure (encLen cfg v.length ++ b)) = .ok b →
      ∀ r, ∃ r', Ty.walkStep.mapStep cfg E get s coll k t (b ++ r) = .ok ((match s with
        | .value j => v[j]?.bind fun e => inner t e.2
        | .key kb => (v.find? fun e => (k.codec cfg E).enc e.1 = .ok kb).bind fun e => inner t e.2
        | _ => none), r') := by
    intro coll k t v b hw ho hlen hval hb r
    unfold Ty.walkStep.mapStep
    cases s with
    | value j =>
      obtain ⟨x, hx, hb⟩ := Res.bind_eq_ok.1 hb
      simp at hb
      subst hb
      obtain ⟨r', hr⟩ := mapAt_enc (hf k) (hf t) (Get.read_finds (hf t) (hget t (ho.1 j rfl))) r j v x hval hx
      refine ⟨r', ?_⟩
      simp only [hw, MapWalker.new, Rd.bind_assoc, Rd.pure_bind, List.append_assoc]
      rw [Rd.bind_of_ok (readLen_encLen cfg hlen _)]
      exact hr
    | key kb =>
      obtain ⟨x, hx, hb⟩ := Res.bind_eq_ok.1 hb
      simp at hb
      subst hb
      obtain ⟨r', hr⟩ := mapKey_enc (hf k) (hf t) (Get.read_finds (hf t) (hget t (ho.2 kb rfl))) kb r v x hval hx
      refine ⟨r', ?_⟩
      simp only [hw, MapWalker.new, Rd.bind_assoc, Rd.pure_bind, List.append_assoc]
      rw [Rd.bind_of_ok (readLen_encLen cfg hlen _)]
      exact hr
    | _ => exact ⟨_, rfl⟩
  induction t with
  | wrap t ih => exact fun v b hv hb r => ih ho v b hv hb r
  | ext i => exact hext i ho
  | option t ih =>
    cases s with
    | some =>
      intro v b hv hb r
      simp only [Ty.walkStep, Ty.walk, Rd.bind_assoc, Rd.pure_bind]
      have hg := hget t (ho rfl)
      cases v with
      | none =>
        simp only [Ty.codec, optionC] at hb
        cases hb
        have h3 : OptionWalker.new cfg (encInt cfg .u8 0 ++ r) = .ok (⟨0⟩, r) := by
          rw [OptionWalker.new, Rd.bind_of_ok (decInt_encInt cfg .u8 0 _)]; rfl
        rw [Rd.bind_of_ok h3]
        cases get t <;> exact ⟨r, rfl⟩
      | some a =>
        simp only [Ty.codec, optionC] at hb
        obtain ⟨x, hx, hb⟩ := Res.bind_eq_ok.1 hb
        simp only [Res.pure_def, Res.ok.injEq] at hb
        subst hb
        have h3 : OptionWalker.new cfg (encInt cfg .u8 1 ++ (x ++ r)) = .ok (⟨1⟩, x ++ r) := by
          rw [OptionWalker.new, Rd.bind_of_ok (decInt_encInt cfg .u8 1 _)]; rfl
        rw [List.append_assoc, Rd.bind_of_ok h3]
        cases hgt : get t with
        | walk m =>
          rw [hgt] at hg
          exact hg a x hv hx r
        | decode out =>
          rw [hgt] at hg
          refine ⟨r, ?_⟩
          have : OptionWalker.decode (t.codec cfg E) ⟨1⟩ (x ++ r) = .ok (Option.some a, r) := by
            simp only [OptionWalker.decode]
            rw [if_neg (by decide), if_pos trivial, Rd.bind_of_ok ((hf t).round_trip a x hv hx r)]
            rfl
          simp only
          rw [Rd.bind_of_ok this]
          simp only [Ty.stepInto, hg a hv]
          rfl
    | _ => exact fun v b _ _ r => ⟨b ++ r, by cases v <;> rfl⟩
  | result t e iht ihe =>
    cases s with
    | ok =>
      intro v b hv hb r
      simp only [Ty.walkStep, Ty.walk, Rd.bind_assoc, Rd.pure_bind]
      cases v with
      | ok a =>
        simp only [Ty.codec, resultC] at hb
        obtain ⟨x, hx, hb⟩ := Res.bind_eq_ok.1 hb
        simp only [Res.pure_def, Res.ok.injEq] at hb
        subst hb
        have h3 : ResultWalker.new cfg (encU32 cfg 0 ++ (x ++ r)) = .ok (⟨0⟩, x ++ r) := by
          rw [ResultWalker.new, Rd.bind_of_ok (readU32_encU32 cfg (by decide) _)]; rfl
        rw [List.append_assoc, Rd.bind_of_ok h3]
        exact Get.read_finds (hf t) (hget t (ho.1 rfl)) a x hv hx r
      | error a =>
        simp only [Ty.codec, resultC] at hb
        obtain ⟨x, hx, hb⟩ := Res.bind_eq_ok.1 hb
        simp only [Res.pure_def, Res.ok.injEq] at hb
        subst hb
        have h3 : ResultWalker.new cfg (encU32 cfg 1 ++ (x ++ r)) = .ok (⟨1⟩, x ++ r) := by
          rw [ResultWalker.new, Rd.bind_of_ok (readU32_encU32 cfg (by decide) _)]; rfl
        rw [List.append_assoc, Rd.bind_of_ok h3]
        exact ⟨_, rfl⟩
    | err =>
      intro v b hv hb r
      simp only [Ty.walkStep, Ty.walk, Rd.bind_assoc, Rd.pure_bind]
      cases v with
      | ok a =>
        simp only [Ty.codec, resultC] at hb
        obtain ⟨x, hx, hb⟩ := Res.bind_eq_ok.1 hb
        simp only [Res.pure_def, Res.ok.injEq] at hb
        subst hb
        have h3 : ResultWalker.new cfg (encU32 cfg 0 ++ (x ++ r)) = .ok (⟨0⟩, x ++ r) := by
          rw [ResultWalker.new, Rd.bind_of_ok (readU32_encU32 cfg (by decide) _)]; rfl
        rw [List.append_assoc, Rd.bind_of_ok h3]
        exact ⟨_, rfl⟩
      | error a =>
        simp only [Ty.codec, resultC] at hb
        obtain ⟨x, hx, hb⟩ := Res.bind_eq_ok.1 hb
        simp only [Res.pure_def, Res.ok.injEq] at hb
        subst hb
        have h3 : ResultWalker.new cfg (encU32 cfg 1 ++ (x ++ r)) = .ok (⟨1⟩, x ++ r) := by
          rw [ResultWalker.new, Rd.bind_of_ok (readU32_encU32 cfg (by decide) _)]; rfl
        rw [List.append_assoc, Rd.bind_of_ok h3]
        exact Get.read_finds (hf e) (hget e (ho.2 rfl)) a x hv hx r
    | _ => exact fun v b _ _ r => ⟨b ++ r, by cases v <;> rfl⟩
  | vec t ih =>
    intro v b hv hb r
    by_cases hs : ∃ k, s = .elem k
    · obtain ⟨k, rfl⟩ := hs
      have hbk := (ho k rfl).1
      simp only [Ty.codec] at hv hb
      rw [vecOf_elementwise hbk] at hv hb
      exact hseq (.vec t) t v b (by simp [Ty.walk, hbk]) (fun k h => (ho k h).2) hv.1 hv.2.2 hb r
    · refine ⟨b ++ r, ?_⟩
      cases s <;> first
        | rfl
        | exact absurd ⟨_, rfl⟩ hs
  | btreeSet t ih | hashSet t ih | binaryHeap t ih | vector t ih =>
    exact fun v b hv hb r => hseq _ t v b rfl ho hv.1 hv.2.2.1 hb r
  | btreeMap k v' ihk ihv | hashMap k v' ihk ihv =>
    exact fun v b hv hb r => hmap _ k v' v b rfl ho hv.1 hv.2.2.1 hb r
  | _ => exact Rd.Finds.none _

end Revision
