import Verif.Proofs.Work
import Verif.Proofs.Ty

/-! Lemmas for C131: the steps that reading a serialised value takes. -/

namespace Revision

/-- The reader takes `k` steps on `s` and gives `a` and what is left. -/
def Ct.Gives (m : Ct α) (s : Bytes) (k : Nat) (a : α) (r : Bytes) : Prop := m s = (k, .ok (a, r))

theorem Res.bind_ok {x : Res α} {f : α → Res β} {b : β} : (x >>= f) = .ok b ↔ ∃ a, x = .ok a ∧ f a = .ok b := by
  cases x with
  | ok a => exact ⟨fun h => ⟨a, rfl, h⟩, fun ⟨_, e, h⟩ => by cases e; exact h⟩
  | err e => exact ⟨fun h => (by cases h), fun ⟨_, e, _⟩ => (by cases e)⟩
  | panic => exact ⟨fun h => (by cases h), fun ⟨_, e, _⟩ => (by cases e)⟩

namespace Ct.Gives

theorem pure (a : α) (s : Bytes) : (Pure.pure a : Ct α).Gives s 0 a s := rfl

theorem tick (n : Nat) (s : Bytes) : (Ct.tick n).Gives s n () s := rfl

theorem of {m : Rd α} {s : Bytes} {a r} (h : m s = .ok (a, r)) : (Ct.of m).Gives s 0 a r := by
  show (0, m s) = _
  rw [h]

theorem bind {m : Ct α} {f : α → Ct β} {s k a r k' b r'} (h : m.Gives s k a r) (h' : (f a).Gives r k' b r') :
    (m >>= f).Gives s (k + k') b r' := by
  unfold Gives at *
  rw [Ct.bind_run, h]
  simp only [h']

theorem bind0 {m : Ct α} {f : α → Ct β} {s a r k b r'} (h : m.Gives s 0 a r) (h' : (f a).Gives r k b r') :
    (m >>= f).Gives s k b r' := Nat.zero_add k ▸ h.bind h'

theorem map {m : Ct α} {g : α → β} {s a r k} (h : m.Gives s k a r) : (m >>= fun x => Pure.pure (g x) : Ct β).Gives s k (g a) r :=
  Ct.Gives.bind (f := fun x => Pure.pure (g x)) h (.pure (g a) _)

theorem alloc {ok : Bool} {m : Ct α} {s k a r} (e : ok = true) (h : m.Gives s k a r) : (Ct.of (Rd.alloc ok) >>= fun _ => m).Gives s k a r :=
  Ct.Gives.bind0 (a := ()) (r := s) (by subst e; rfl) h

theorem mapErr {m : Ct α} {s k a r} (g) (h : m.Gives s k a r) : (m.mapErr g).Gives s k a r := by
  unfold Gives at *
  show ((m s).1, (m s).2.mapErr g) = _
  rw [h]
  rfl

theorem cast {m : Ct α} {s k a r k'} (h : m.Gives s k a r) (e : k = k') : m.Gives s k' a r := e ▸ h

theorem ofTrue {c : Prop} [Decidable c] {m n : Ct α} {s k a r} (hc : c) (h : m.Gives s k a r) : (if c then m else n).Gives s k a r := by
  rw [if_pos hc]; exact h

theorem ofFalse {c : Prop} [Decidable c] {m n : Ct α} {s k a r} (hc : ¬ c) (h : n.Gives s k a r) : (if c then m else n).Gives s k a r := by
  rw [if_neg hc]; exact h

theorem become {m : Ct α} {s k a r a' r'} (h : m.Gives s k a r) (e : m.erase s = .ok (a', r')) : m.Gives s k a' r' := by
  have e : (m s).2 = .ok (a', r') := e
  unfold Gives at *
  rw [h] at e
  have e : Res.ok (a, r) = .ok (a', r') := e
  rw [h, e]

end Ct.Gives

/-- Serialised values are read back and skipped. -/
structure Codec.Back (c : Codec α) : Prop where
  round_trip : ∀ v b, c.valid v → c.enc v = .ok b → ∀ t, c.dec (b ++ t) = .ok (v, t)
  skip_after : ∀ v b, c.valid v → c.enc v = .ok b → ∀ t, c.skip (b ++ t) = .ok ((), t)
  skipS_after : ∀ v b, c.valid v → c.enc v = .ok b → ∀ t, c.skipS (b ++ t) = .ok ((), t)

theorem Codec.Lawful.back {c : Codec α} (hc : c.Lawful) : c.Back :=
  have skip : ∀ v b (_ : c.valid v) (_ : c.enc v = .ok b) (t : Bytes), c.skip (b ++ t) = .ok ((), t) := fun v b hv hb t =>
    (hc.skip_agree _ _ _ (hc.round_trip v b hv hb t)).elim fun _ h => h
  ⟨hc.round_trip, skip, hc.skipS_eq ▸ skip⟩

theorem Codec.Faithful.back {c : Codec α} (hc : c.Faithful) : c.Back := ⟨hc.round_trip, hc.skip_after, hc.skipS_after⟩

/-- Serialised values are read in the steps `nodes` says. -/
def Ct.Reads (m : Ct α) (c : Codec α) (nodes : α → Nat) : Prop :=
  ∀ v b, c.valid v → c.enc v = .ok b → ∀ t, m.Gives (b ++ t) (nodes v) v t

/-- Serialised values are skipped in at most the steps `nodes` says. -/
def Ct.Passes (m : Ct Unit) (c : Codec α) (nodes : α → Nat) : Prop :=
  ∀ v b, c.valid v → c.enc v = .ok b → ∀ t, ∃ k ≤ nodes v, m.Gives (b ++ t) k () t

structure Counted.Follows (x : Counted α) (c : Codec α) (nodes : α → Nat) : Prop where
  dec : x.dec.Reads c nodes
  skip : x.skip.Passes c nodes
  skipS : x.skipS.Passes c nodes

theorem Counted.Follows.exact {x : Counted α} {c : Codec α} {nodes} (h : x.Follows c nodes) : x.Exact c nodes := by
  refine ⟨fun v b hv hb t => ?_, fun v b hv hb t => ?_, fun v b hv hb t => ?_⟩
  · have := h.dec v b hv hb t
    exact congrArg Prod.fst this
  · obtain ⟨k, hk, e⟩ := h.skip v b hv hb t
    have : x.skip.steps (b ++ t) = k := congrArg Prod.fst e
    omega
  · obtain ⟨k, hk, e⟩ := h.skipS v b hv hb t
    have : x.skipS.steps (b ++ t) = k := congrArg Prod.fst e
    omega

theorem Counted.Exact.follows {x : Counted α} {c : Codec α} {nodes} (h : x.Exact c nodes) (hx : x.Counts c) (hc : c.Back) :
    x.Follows c nodes := by
  refine ⟨fun v b hv hb t => ?_, fun v b hv hb t => ⟨_, h.skip v b hv hb t, ?_⟩, fun v b hv hb t => ⟨_, h.skipS v b hv hb t, ?_⟩⟩
  · have e1 : x.dec.erase (b ++ t) = .ok (v, t) := by rw [hx.dec]; exact hc.round_trip v b hv hb t
    exact Prod.ext (h.dec v b hv hb t) e1
  · have e1 : x.skip.erase (b ++ t) = .ok ((), t) := by rw [hx.skip]; exact hc.skip_after v b hv hb t
    exact Prod.ext rfl e1
  · have e1 : x.skipS.erase (b ++ t) = .ok ((), t) := by rw [hx.skipS]; exact hc.skipS_after v b hv hb t
    exact Prod.ext rfl e1

theorem readN_gives {m : Ct α} {c : Codec α} {nodes} (h : m.Reads c nodes) : ∀ (l : List α) b, (∀ a ∈ l, c.valid a) →
    encList c.enc l = .ok b → ∀ t, (Ct.readN l.length m).Gives (b ++ t) (l.map nodes).sum l t
  | [], _, _, hb, t => by cases hb; rfl
  | a :: l, _, hv, hb, t => by
    obtain ⟨b1, h1, hb⟩ := Res.bind_ok.1 hb
    obtain ⟨b2, h2, hb⟩ := Res.bind_ok.1 hb
    cases hb
    rw [List.append_assoc]
    exact (h a b1 (hv a List.mem_cons_self) h1 _).bind (readN_gives h l b2 (fun a ha => hv a (List.mem_cons_of_mem _ ha)) h2 t).map

theorem repeatN_gives {m : Ct Unit} {c : Codec α} {nodes} (h : m.Passes c nodes) : ∀ (l : List α) b, (∀ a ∈ l, c.valid a) →
    encList c.enc l = .ok b → ∀ t, ∃ k ≤ (l.map nodes).sum, (Ct.repeatN l.length m).Gives (b ++ t) k () t
  | [], _, _, hb, t => by cases hb; exact ⟨0, Nat.le_refl _, rfl⟩
  | a :: l, _, hv, hb, t => by
    obtain ⟨b1, h1, hb⟩ := Res.bind_ok.1 hb
    obtain ⟨b2, h2, hb⟩ := Res.bind_ok.1 hb
    cases hb
    rw [List.append_assoc]
    obtain ⟨k1, l1, g1⟩ := h a b1 (hv a List.mem_cons_self) h1 (b2 ++ t)
    obtain ⟨k2, l2, g2⟩ := repeatN_gives h l b2 (fun a ha => hv a (List.mem_cons_of_mem _ ha)) h2 t
    exact ⟨k1 + k2, by simp only [List.map_cons, List.sum_cons]; omega, g1.bind g2⟩

namespace Counted.Follows

theorem leaf {c : Codec α} (hc : c.Back) : (Counted.leaf c).Follows c (fun _ => 1) :=
  ⟨fun v b hv hb t => ((Ct.Gives.tick 1 _).bind (.of (hc.round_trip v b hv hb t))).cast rfl,
    fun _ _ hv hb t => ⟨1, Nat.le_refl _, ((Ct.Gives.tick 1 _).bind (.of (hc.skip_after _ _ hv hb t))).cast rfl⟩,
    fun _ _ hv hb t => ⟨1, Nat.le_refl _, ((Ct.Gives.tick 1 _).bind (.of (hc.skipS_after _ _ hv hb t))).cast rfl⟩⟩

theorem bulk {c : Codec (List α)} (hc : c.Back) : (Counted.bulk c).Follows c (fun l => 1 + l.length) :=
  ⟨fun v b hv hb t => ((Ct.Gives.tick 1 _).bind ((Ct.Gives.of (hc.round_trip v b hv hb t)).bind0 (Ct.Gives.tick (1 * v.length) _).map)).cast (by rw [Nat.one_mul]),
    fun _ _ hv hb t => ⟨1, by omega, ((Ct.Gives.tick 1 _).bind (.of (hc.skip_after _ _ hv hb t))).cast rfl⟩,
    fun _ _ hv hb t => ⟨1, by omega, ((Ct.Gives.tick 1 _).bind (.of (hc.skipS_after _ _ hv hb t))).cast rfl⟩⟩

theorem call {x : Counted α} {c : Codec α} {nodes nodes' : α → Nat} (h : x.Follows c nodes) (e : ∀ v, nodes' v = 1 + nodes v) :
    x.call.Follows c nodes' := by
  have pass : ∀ {m : Ct Unit}, m.Passes c nodes → (do Ct.tick 1; m : Ct Unit).Passes c nodes' := by
    intro m h v b hv hb t
    obtain ⟨k, l, g⟩ := h v b hv hb t
    exact ⟨1 + k, by rw [e]; omega, (Ct.Gives.tick 1 _).bind g⟩
  exact ⟨fun v b hv hb t => ((Ct.Gives.tick 1 _).bind (h.dec v b hv hb t)).cast (e v).symm, pass h.skip, pass h.skipS⟩

theorem both {x : Counted α} {y : Counted β} {c : Codec α} {d : Codec β} {n : α → Nat} {n' : β → Nat} (h : x.Follows c n)
    (h' : y.Follows d n') : (x.both y).Follows (pairC c d) (fun v => n v.1 + n' v.2) := by
  have pass : ∀ {m m' : Ct Unit}, m.Passes c n → m'.Passes d n' →
      (do m; m' : Ct Unit).Passes (pairC c d) (fun v => n v.1 + n' v.2) := by
    intro m m' h h' v b hv hb t
    obtain ⟨b1, h1, hb⟩ := Res.bind_ok.1 hb
    obtain ⟨b2, h2, hb⟩ := Res.bind_ok.1 hb
    cases hb
    rw [List.append_assoc]
    obtain ⟨k1, l1, g1⟩ := h v.1 b1 hv.1 h1 (b2 ++ t)
    obtain ⟨k2, l2, g2⟩ := h' v.2 b2 hv.2 h2 t
    exact ⟨k1 + k2, Nat.add_le_add l1 l2, g1.bind g2⟩
  refine ⟨fun v b hv hb t => ?_, pass h.skip h'.skip, pass h.skipS h'.skipS⟩
  obtain ⟨b1, h1, hb⟩ := Res.bind_ok.1 hb
  obtain ⟨b2, h2, hb⟩ := Res.bind_ok.1 hb
  cases hb
  rw [List.append_assoc]
  exact (h.dec v.1 b1 hv.1 h1 _).bind (h'.dec v.2 b2 hv.2 h2 t).map

theorem array {x : Counted α} {c : Codec α} {n : α → Nat} (k : Nat) (h : x.Follows c n) :
    (x.array k).Follows (arrayC k c) (fun l => (l.map n).sum) :=
  ⟨fun v b hv hb t => by have e := hv.1; subst e; exact readN_gives h.dec v b hv.2 hb t,
    fun v b hv hb t => by have e := hv.1; subst e; exact repeatN_gives h.skip v b hv.2 hb t,
    fun v b hv hb t => by have e := hv.1; subst e; exact repeatN_gives h.skipS v b hv.2 hb t⟩

theorem wrap {x : Counted α} {c : Codec α} {n : α → Nat} (h : x.Follows c n) : x.wrap.Follows (wrapC c) n := ⟨h.dec, h.skip, h.skipS⟩

theorem option {x : Counted α} {c : Codec α} {n : α → Nat} (cfg : Cfg) (h : x.Follows c n) :
    (x.option cfg).Follows (optionC cfg c) (fun v => match v with | none => 0 | some a => n a) := by
  have z : ∀ t, decInt cfg .u8 (encInt cfg .u8 0 ++ t) = .ok (0, t) := decInt_encInt cfg .u8 0
  have o : ∀ t, decInt cfg .u8 (encInt cfg .u8 1 ++ t) = .ok (1, t) := decInt_encInt cfg .u8 1
  have h10 : ¬ ((1 : BitVec IntTy.u8.bits) = 0) := by decide
  have pass : ∀ {m : Ct Unit}, m.Passes c n → (do
      let t ← Ct.of (decInt cfg .u8)
      if t = 0 then Pure.pure () else if t = 1 then m else Ct.of (Rd.fail .deserialize) : Ct Unit).Passes (optionC cfg c)
        (fun v => match v with | none => 0 | some a => n a) := by
    intro m h v b hv hb t
    cases v with
    | none =>
      cases hb
      exact ⟨0, Nat.le_refl _, (Ct.Gives.of (z t)).bind0 (.ofTrue rfl (.pure _ _))⟩
    | some a =>
      obtain ⟨b1, h1, hb⟩ := Res.bind_ok.1 hb
      cases hb
      obtain ⟨k, l, g⟩ := h a b1 hv h1 t
      rw [List.append_assoc]
      exact ⟨k, l, (Ct.Gives.of (o _)).bind0 (.ofFalse h10 (.ofTrue rfl g))⟩
  refine ⟨fun v b hv hb t => ?_, pass h.skip, pass h.skipS⟩
  cases v with
  | none =>
    cases hb
    exact (Ct.Gives.of (z t)).bind0 (.ofTrue rfl (.pure _ _))
  | some a =>
    obtain ⟨b1, h1, hb⟩ := Res.bind_ok.1 hb
    cases hb
    rw [List.append_assoc]
    exact ((Ct.Gives.of (o _)).bind0 (.ofFalse h10 (.ofTrue rfl (h.dec a b1 hv h1 t).map)))

theorem u32 (cfg : Cfg) {k : Nat} (h : k < 2 ^ 32) (t : Bytes) : (Ct.of (readU32 cfg)).Gives (encU32 cfg k ++ t) 0 k t :=
  .of (readU32_encU32 cfg h t)

theorem result {x : Counted α} {y : Counted β} {c : Codec α} {d : Codec β} {n : α → Nat} {n' : β → Nat} (cfg : Cfg) (h : x.Follows c n)
    (h' : y.Follows d n') :
    (x.result cfg y).Follows (resultC cfg c d) (fun v => match v with | .ok a => n a | .error e => n' e) := by
  have pass : ∀ {m m' : Ct Unit}, m.Passes c n → m'.Passes d n' → (do
      let t ← Ct.of (readU32 cfg)
      if t = 0 then m else if t = 1 then m' else Ct.of (Rd.fail .deserialize) : Ct Unit).Passes (resultC cfg c d)
        (fun v => match v with | .ok a => n a | .error e => n' e) := by
    intro m m' h h' v b hv hb t
    cases v with
    | ok a =>
      obtain ⟨b1, h1, hb⟩ := Res.bind_ok.1 hb
      cases hb
      obtain ⟨k, l, g⟩ := h a b1 hv h1 t
      rw [List.append_assoc]
      exact ⟨k, l, (u32 cfg (by decide) _).bind0 (.ofTrue rfl g)⟩
    | error a =>
      obtain ⟨b1, h1, hb⟩ := Res.bind_ok.1 hb
      cases hb
      obtain ⟨k, l, g⟩ := h' a b1 hv h1 t
      rw [List.append_assoc]
      exact ⟨k, l, (u32 cfg (by decide) _).bind0 (.ofFalse (by decide) (.ofTrue rfl g))⟩
  refine ⟨fun v b hv hb t => ?_, pass h.skip h'.skip, pass h.skipS h'.skipS⟩
  cases v with
  | ok a =>
    obtain ⟨b1, h1, hb⟩ := Res.bind_ok.1 hb
    cases hb
    rw [List.append_assoc]
    exact ((u32 cfg (by decide) _).bind0 (.ofTrue rfl ((h.dec a b1 hv h1 t).mapErr _).map))
  | error a =>
    obtain ⟨b1, h1, hb⟩ := Res.bind_ok.1 hb
    cases hb
    rw [List.append_assoc]
    exact ((u32 cfg (by decide) _).bind0 (.ofFalse (by decide) (.ofTrue rfl ((h'.dec a b1 hv h1 t).mapErr _).map)))

theorem bound {x : Counted α} {c : Codec α} {n : α → Nat} (cfg : Cfg) (h : x.Follows c n) :
    (x.bound cfg).Follows (boundC cfg c) (fun v => match v with | .unbounded => 0 | .included a | .excluded a => n a) := by
  have pass : ∀ {m : Ct Unit}, m.Passes c n → (do
      let t ← Ct.of (readU32 cfg)
      if t = 0 then Pure.pure () else if t = 1 then m else if t = 2 then m else Ct.of (Rd.fail .deserialize) : Ct Unit).Passes (boundC cfg c)
        (fun v => match v with | .unbounded => 0 | .included a | .excluded a => n a) := by
    intro m h v b hv hb t
    cases v with
    | unbounded =>
      cases hb
      exact ⟨0, Nat.le_refl _, (u32 cfg (by decide) _).bind0 (.ofTrue rfl (.pure _ _))⟩
    | included a =>
      obtain ⟨b1, h1, hb⟩ := Res.bind_ok.1 hb
      cases hb
      obtain ⟨k, l, g⟩ := h a b1 hv h1 t
      rw [List.append_assoc]
      exact ⟨k, l, (u32 cfg (by decide) _).bind0 (.ofFalse (by decide) (.ofTrue rfl g))⟩
    | excluded a =>
      obtain ⟨b1, h1, hb⟩ := Res.bind_ok.1 hb
      cases hb
      obtain ⟨k, l, g⟩ := h a b1 hv h1 t
      rw [List.append_assoc]
      exact ⟨k, l, (u32 cfg (by decide) _).bind0 (.ofFalse (by decide) (.ofFalse (by decide) (.ofTrue rfl g)))⟩
  refine ⟨fun v b hv hb t => ?_, pass h.skip, pass h.skipS⟩
  cases v with
  | unbounded =>
    cases hb
    exact (u32 cfg (by decide) _).bind0 (.ofTrue rfl (.pure _ _))
  | included a =>
    obtain ⟨b1, h1, hb⟩ := Res.bind_ok.1 hb
    cases hb
    rw [List.append_assoc]
    exact ((u32 cfg (by decide) _).bind0 (.ofFalse (by decide) (.ofTrue rfl ((h.dec a b1 hv h1 t).mapErr _).map)))
  | excluded a =>
    obtain ⟨b1, h1, hb⟩ := Res.bind_ok.1 hb
    cases hb
    rw [List.append_assoc]
    exact ((u32 cfg (by decide) _).bind0 (.ofFalse (by decide) (.ofFalse (by decide) (.ofTrue rfl ((h.dec a b1 hv h1 t).mapErr _).map))))

theorem loops {m : Ct Unit} {c : Codec α} {n : α → Nat} (cfg : Cfg) (h : m.Passes c n) {l : List α} {b : Bytes} (hl : l.length < 2 ^ 64)
    (hv : ∀ a ∈ l, c.valid a) (hb : (do let b ← encList c.enc l; Pure.pure (encLen cfg l.length ++ b) : Res Bytes) = .ok b) (t : Bytes) :
    ∃ k ≤ (l.map n).sum, (do let n ← Ct.of (readLen cfg); Ct.repeatN n m : Ct Unit).Gives (b ++ t) k () t := by
  obtain ⟨b1, h1, hb⟩ := Res.bind_ok.1 hb
  cases hb
  rw [List.append_assoc]
  obtain ⟨k, hk, g⟩ := repeatN_gives h l b1 hv h1 t
  exact ⟨k, hk, (Ct.Gives.of (readLen_encLen cfg hl _)).bind0 g⟩

theorem vec {x : Counted α} {c : Codec α} {n : α → Nat} (cfg : Cfg) (cap) (h : x.Follows c n) :
    (x.vec cfg cap).Follows (vecC cfg cap c) (fun l => (l.map n).sum) := by
  refine ⟨fun l b hv hb t => ?_, fun l b hv hb t => loops cfg h.skip hv.1 hv.2.2 hb t, fun l b hv hb t => loops cfg h.skipS hv.1 hv.2.2 hb t⟩
  obtain ⟨b1, h1, hb⟩ := Res.bind_ok.1 hb
  cases hb
  rw [List.append_assoc]
  refine (Ct.Gives.of (readLen_encLen cfg hv.1 _)).bind0 ?_
  cases l with
  | nil => cases h1; exact .ofTrue rfl (.pure _ _)
  | cons a l =>
    refine .ofFalse (by simp) ?_
    exact .alloc (hv.2.1 (by simp)) (readN_gives h.dec (a :: l) b1 hv.2.2 h1 t)

theorem coll {x : Counted α} {c : Codec α} {n : α → Nat} (cfg : Cfg) (cap inv build) (hx : x.Counts c) (h : x.Follows c n)
    (hc : (collC cfg cap c inv build).Back) :
    (x.coll cfg cap build).Follows (collC cfg cap c inv build) (fun l => (l.map n).sum) := by
  refine ⟨fun l b hv hb t => ?_, fun l b hv hb t => loops cfg h.skip hv.1 hv.2.2.1 hb t, fun l b hv hb t => loops cfg h.skipS hv.1 hv.2.2.1 hb t⟩
  have rt := hc.round_trip l b hv hb t
  rw [← (Counted.Counts.coll cfg cap inv build hx).dec] at rt
  obtain ⟨b1, h1, hb⟩ := Res.bind_ok.1 hb
  cases hb
  refine Ct.Gives.become (a := build l) (r := t) ?_ rt
  rw [List.append_assoc]
  refine (Ct.Gives.of (readLen_encLen cfg hv.1 _)).bind0 ?_
  exact .alloc hv.2.1 (readN_gives h.dec l b1 hv.2.2.1 h1 t).map

end Counted.Follows

variable {ι : Type}

theorem sum_ones (l : List α) : (l.map fun _ => 1).sum = l.length := by
  induction l with
  | nil => rfl
  | cons a l ih => simp only [List.map_cons, List.sum_cons, ih, List.length_cons]; omega

theorem countedVec_follows (cfg : Cfg) {E : Env ι} (nx : (i : ι) → E.X i → Nat) (t : Ty ι) {x : Counted (t.denote E.X)}
    {c : Codec (t.denote E.X)} (h : x.Follows c (t.nodes E.X nx)) (hl : (vecOf cfg E t c).Back) :
    (countedVec cfg E t x).Follows (vecOf cfg E t c) (fun l => 1 + (l.map fun a => t.nodes E.X nx a).sum) := by
  have one : ∀ {c : Codec (List (t.denote E.X))}, (∀ a, t.nodes E.X nx a = 1) → c.Back →
      (Counted.bulk c).Follows c (fun l => 1 + (l.map fun a => t.nodes E.X nx a).sum) := by
    intro c e hc
    have h := Counted.Follows.bulk hc
    have : (fun l : List (t.denote E.X) => 1 + (l.map fun a => t.nodes E.X nx a).sum) = fun l => 1 + l.length := by
      funext l
      have e' : (fun a => t.nodes E.X nx a) = fun _ => 1 := funext e
      rw [e', sum_ones]
    rw [this]
    exact h
  cases t <;> simp only [countedVec, vecOf] at * <;> (try split) <;> (try simp only [*, if_true] at hl) <;> first
    | exact .call (.vec cfg _ h) fun _ => rfl
    | exact one (fun _ => rfl) hl

theorem Ty.counted_follows (cfg : Cfg) {E : Env ι} (hE : ∀ t : Ty ι, (t.codec cfg E).Back) (x : (i : ι) → Counted (E.X i)) (hx : ∀ i, (x i).Counts (E.extC i))
    (nx : (i : ι) → E.X i → Nat) (hn : ∀ i, (x i).Follows (E.extC i) (nx i)) :
    ∀ t : Ty ι, (t.counted cfg E x).Follows (t.codec cfg E) (t.nodes E.X nx)
  | .option t => .call (.option cfg (counted_follows cfg hE x hx nx hn t)) fun v => by cases v <;> rfl
  | .result t e => .call (.result cfg (counted_follows cfg hE x hx nx hn t) (counted_follows cfg hE x hx nx hn e)) fun v => by cases v <;> rfl
  | .bound t => .call (.bound cfg (counted_follows cfg hE x hx nx hn t)) fun v => by cases v <;> rfl
  | .wrap t => .call (.wrap (counted_follows cfg hE x hx nx hn t)) fun v => rfl
  | .pair s t => .call (.both (counted_follows cfg hE x hx nx hn s) (counted_follows cfg hE x hx nx hn t)) fun v => Nat.add_assoc _ _ _
  | .array n t => .call (.array n (counted_follows cfg hE x hx nx hn t)) fun v => rfl
  | .vec t => countedVec_follows cfg nx t (counted_follows cfg hE x hx nx hn t) (hE (.vec t))
  | .btreeMap k v => .call (.coll cfg _ _ _ (.both (counted_counts cfg E x hx k) (counted_counts cfg E x hx v))
      (.both (counted_follows cfg hE x hx nx hn k) (counted_follows cfg hE x hx nx hn v)) (hE (.btreeMap k v))) fun _ => rfl
  | .hashMap k v => .call (.coll cfg _ _ _ (.both (counted_counts cfg E x hx k) (counted_counts cfg E x hx v))
      (.both (counted_follows cfg hE x hx nx hn k) (counted_follows cfg hE x hx nx hn v)) (hE (.hashMap k v))) fun _ => rfl
  | .btreeSet t => .call (.coll cfg _ _ _ (counted_counts cfg E x hx t) (counted_follows cfg hE x hx nx hn t) (hE (.btreeSet t))) fun _ => rfl
  | .hashSet t => .call (.coll cfg _ _ _ (counted_counts cfg E x hx t) (counted_follows cfg hE x hx nx hn t) (hE (.hashSet t))) fun _ => rfl
  | .binaryHeap t => .call (.coll cfg _ _ _ (counted_counts cfg E x hx t) (counted_follows cfg hE x hx nx hn t) (hE (.binaryHeap t))) fun _ => rfl
  | .vector t => .call (.coll cfg _ _ _ (counted_counts cfg E x hx t) (counted_follows cfg hE x hx nx hn t) (hE (.vector t))) fun _ => rfl
  | .ext i => hn i
  | .unit => .leaf (hE .unit)
  | .bool => .leaf (hE .bool)
  | .int k => .leaf (hE (.int k))
  | .float f => .leaf (hE (.float f))
  | .char => .leaf (hE .char)
  | .string => .leaf (hE .string)
  | .path => .leaf (hE .path)
  | .bytes => .leaf (hE .bytes)
  | .uuid => .leaf (hE .uuid)
  | .duration => .leaf (hE .duration)
  | .systemTime => .leaf (hE .systemTime)
  | .notNan f => .leaf (hE (.notNan f))

end Revision
