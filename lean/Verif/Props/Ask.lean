import Verif.Proofs.Ask
import Verif.Props.IndexedWalk
import Verif.Props.Walk

/-!
# C118: what a lookup asks of the caller's closure
-/

namespace Revision

open IndexedMapWalker

variable {σ : Type}

/-! ### Closures without state -/

/-- C118: with a closure whose answers depend on the key only, every lookup gives what the other
claims about lookups (C28, C35, C36) say of a pure predicate. -/
theorem C118_stateless {κ β : Type} (cfg : Cfg) (w : IndexedMapWalker) (hint : Option Nat)
    (k : Codec κ) (v : Codec β) (input : Bytes) (st : σ) :
    (∀ (p : σ → Bytes → Ordering × σ) (pred : Bytes → Ordering), (∀ s b, (p s b).1 = pred b) →
      (w.findValueBytesAsk.run p st).1 = w.findValueBytes pred ∧
      ((w.findWithHintAsk hint).run p st).1 = w.findWithHint hint pred ∧
      ((MapWalker.openFindBytesAsk cfg k v input).run p st).1 =
        (MapWalker.new cfg >>= fun w => w.findBytes cfg k v pred) input) ∧
    (∀ (p : σ → κ → Ordering × σ) (pred : κ → Ordering), (∀ s a, (p s a).1 = pred a) →
      ((MapWalker.openFindAsk cfg k v input).run p st).1 =
        (MapWalker.new cfg >>= fun w => w.find k v pred) input) := by
  refine ⟨fun p pred hp => ⟨?_, ?_, ?_⟩, fun p pred hp => ?_⟩
  · unfold findValueBytesAsk findValueBytes
    cases w.prologue with
    | none => rfl
    | some pr =>
      simp only [Ask.run_andThen, Ask.run, searchAsk_stateless pr w.len hp _ _ _ _ rfl]
  · unfold findWithHintAsk findWithHint
    cases w.prologue with
    | none => rfl
    | some pr =>
      simp only [Ask.run_andThen, probeAsk_stateless pr w.len hp]
      cases probe pr w.len hint pred with
      | ok o =>
        cases o with
        | none => simp only [Ask.run_andThen, Ask.run, searchAsk_stateless pr w.len hp _ _ _ _ rfl]; rfl
        | some q => rfl
      | err e => rfl
      | panic => rfl
  · unfold MapWalker.openFindBytesAsk
    rw [Rd.bind_run]
    cases MapWalker.new cfg input with
    | ok q => exact MapWalker.findAsk_stateless _ _ _ hp _ _ _
    | err e => rfl
    | panic => rfl
  · unfold MapWalker.openFindAsk
    rw [Rd.bind_run]
    cases MapWalker.new cfg input with
    | ok q => exact MapWalker.findAsk_stateless _ _ _ hp _ _ _
    | err e => rfl
    | panic => rfl

/-- C118: the calls spoken of below are those the closure sees. -/
theorem C118_calls {κ α : Type} (p : σ → κ → Ordering × σ) (t : Ask κ α) (st : σ) :
    t.run (recording p) (st, []) = ((t.run p st).1, ((t.run p st).2, t.calls p st)) := by
  simpa using Ask.run_recording p t st []

/-! ### Indexed maps -/

/-- C118: a lookup in an indexed map of fewer than `2 ^ b` entries calls the closure at most `b`
times, and at most once more with a hint, whatever the payload and whatever the closure. -/
theorem C118_few_calls (w : IndexedMapWalker) (b : Nat) (hb : w.len < 2 ^ b)
    (p : σ → Bytes → Ordering × σ) (st : σ) (hint : Option Nat) :
    (w.findValueBytesAsk.calls p st).length ≤ b ∧
    ((w.findWithHintAsk hint).calls p st).length ≤ b + 1 := by
  refine ⟨?_, ?_⟩
  · unfold findValueBytesAsk
    cases w.prologue with
    | none => exact Nat.zero_le _
    | some pr =>
      simp only [Ask.calls_andThen, Ask.calls, List.append_nil]
      exact searchAsk_calls pr w.len p b 0 w.len st hb
  · unfold findWithHintAsk
    cases w.prologue with
    | none => exact Nat.zero_le _
    | some pr =>
      simp only [Ask.calls_andThen, List.length_append]
      have h1 := probeAsk_calls pr w.len p hint st
      have h2 := searchAsk_calls pr w.len p b 0 w.len ((probeAsk pr w.len hint).run p st).2 hb
      split
      · simp only [Ask.calls, List.length_nil]; omega
      · simp only [Ask.calls, List.length_nil]; omega
      · simp only [Ask.calls, List.length_nil]; omega
      · simp only [Ask.calls_andThen, Ask.calls, List.append_nil]; omega

theorem accepted_prologue {q : Bytes} (hlen : q.length < 2 ^ 63) {w : IndexedMapWalker}
    (h : IndexedMapWalker.fromPayload q = .ok w) {es : List (Bytes × Bytes)}
    (he : w.entries = some (.ok es)) : ∃ pr, w.prologue = some pr ∧ pr.Valid w.len ∧
      pr.keys.length < 2 ^ 32 ∧ pr.es w.len = es := by
  have hi : w.isIndexed = true := by
    unfold IndexedMapWalker.entries at he
    unfold IndexedMapWalker.isIndexed
    cases hp : w.prologue with
    | none => rw [hp] at he; cases he
    | some _ => rfl
  obtain ⟨pr, hs, hv⟩ := mapAccepted hlen h hi
  rw [entries_valid hs.pro hv] at he
  injection he with he; injection he with he
  exact ⟨pr, hs.pro, hv, hs.kLt, he⟩

/-- C118: a lookup in an accepted indexed map with any closure at all, even one that contradicts
itself: it succeeds, asks about keys of the map only, about none of them twice, stops at the first
`Equal`, and returns the value stored with that key, or nothing if it heard no `Equal`. -/
theorem C118_any_closure (q : Bytes) (hlen : q.length < 2 ^ 63) (w : IndexedMapWalker)
    (h : IndexedMapWalker.fromPayload q = .ok w) (es : List (Bytes × Bytes))
    (he : w.entries = some (.ok es)) (p : σ → Bytes → Ordering × σ) (st : σ) :
    ∃ talk r, w.findValueBytesAsk.calls p st = talk ∧ (w.findValueBytesAsk.run p st).1 = .ok r ∧
      (talk.map Prod.fst).Nodup ∧ (∀ e ∈ talk, e.1 ∈ es.map Prod.fst) ∧
      (∀ e ∈ talk.dropLast, e.2 ≠ .eq) ∧
      (∀ v, r = some v → ∃ k, talk.getLast? = some (k, .eq) ∧ (k, v) ∈ es) ∧
      (r = none → ∀ e ∈ talk, e.2 ≠ .eq) := by
  obtain ⟨pr, hp, hv, _, he⟩ := accepted_prologue hlen h he
  obtain ⟨talk, st', r, h1, h2, h3, ⟨idx, h4, h5, h6⟩, h7, h8⟩ :=
    searchAsk_valid hv p w.len 0 w.len st (Nat.le_refl _) (by have := w.len.lt_two_pow_self; omega)
  have inj : ∀ i j, i < w.len → j < w.len → i ≠ j → pr.key w.len i ≠ pr.key w.len j := by
    intro i j hi hj hne heq
    rcases Nat.lt_trichotomy i j with c | c | c
    · have := hv.keys_lt i j c hj; rw [heq, cmpBytes_self] at this; cases this
    · exact hne c
    · have := hv.keys_lt j i c hi; rw [heq, cmpBytes_self] at this; cases this
  refine ⟨talk, r.map Prod.fst, ?_, ?_, ?_, ?_, ?_, ?_, ?_⟩
  · unfold findValueBytesAsk
    simp only [hp, Ask.calls_andThen, Ask.calls, h1, List.append_nil]
  · unfold findValueBytesAsk
    simp only [hp, Ask.run_andThen, Ask.run, h2, Res.ok_bind, Res.pure_def]
  · rw [h4]
    refine List.Pairwise.map _ (fun a b hab => hab) ?_ |> fun x => x
    refine (List.Pairwise.and_mem.1 h5).imp ?_
    intro a b hab
    exact inj a b (h6 a hab.1).2 (h6 b hab.2.1).2 hab.2.2
  · intro e hem
    have : e.1 ∈ talk.map Prod.fst := List.mem_map.2 ⟨e, hem, rfl⟩
    rw [h4] at this
    obtain ⟨i, hi, e1⟩ := List.mem_map.1 this
    rw [← he, ← e1]
    simp only [MapPrologue.es, List.map_map, List.mem_map, List.mem_range]
    exact ⟨i, (h6 i hi).2, rfl⟩
  · cases r with
    | none => intro e hem; exact h7 rfl e (List.dropLast_subset _ hem)
    | some x =>
      obtain ⟨pre, j, _, e1, _, _, a5⟩ := h8 x.1 x.2 rfl
      intro e hem
      rw [e1, List.dropLast_concat] at hem
      exact a5 e hem
  · intro v hr
    cases r with
    | none => cases hr
    | some x =>
      obtain ⟨pre, j, hj, e1, e2, _, _⟩ := h8 x.1 x.2 rfl
      cases hr
      refine ⟨pr.key w.len j, by rw [e1]; simp, ?_⟩
      rw [← he, e2]
      simp only [MapPrologue.es, List.mem_map, List.mem_range]
      exact ⟨j, hj, rfl⟩
  · intro hr
    cases r with
    | none => exact h7 rfl
    | some x => cases hr

/-- C118: with a hint within an accepted map the closure is asked about the hinted key first.  On
`Equal` that is the only call, and the hinted value is returned with the hint.  On any other
answer the plain lookup follows. -/
theorem C118_hint (q : Bytes) (hlen : q.length < 2 ^ 63) (w : IndexedMapWalker)
    (h : IndexedMapWalker.fromPayload q = .ok w) (es : List (Bytes × Bytes))
    (he : w.entries = some (.ok es)) (p : σ → Bytes → Ordering × σ) (st : σ) (i : Nat)
    (k x : Bytes) (hi : es[i]? = some (k, x)) :
    ((p st k).1 = .eq → (w.findWithHintAsk (some i)).calls p st = [(k, .eq)] ∧
      (w.findWithHintAsk (some i)).run p st = (.ok ⟨some x, some i⟩, (p st k).2)) ∧
    ((p st k).1 ≠ .eq → ∃ r hint', (w.findWithHintAsk (some i)).calls p st =
        (k, (p st k).1) :: w.findValueBytesAsk.calls p (p st k).2 ∧
      w.findValueBytesAsk.run p (p st k).2 =
        (.ok r, ((w.findWithHintAsk (some i)).run p st).2) ∧
      ((w.findWithHintAsk (some i)).run p st).1 = .ok ⟨r, hint'⟩ ∧ (r = none → hint' = some i) ∧
      (∀ v, r = some v → ∃ j k', hint' = some j ∧ es[j]? = some (k', v))) := by
  obtain ⟨pr, hp, hv, hk, he⟩ := accepted_prologue hlen h he
  have hile : i < w.len ∧ pr.key w.len i = k ∧ pr.val w.len i = x := by
    rw [← he] at hi
    simp only [MapPrologue.es, List.getElem?_map] at hi
    by_cases c : i < w.len
    · rw [List.getElem?_range c] at hi
      simp only [Option.map_some, Option.some.injEq, Prod.mk.injEq] at hi
      exact ⟨c, hi.1, hi.2⟩
    · rw [List.getElem?_eq_none (by simp; omega)] at hi; cases hi
  obtain ⟨hil, rfl, rfl⟩ := hile
  refine ⟨fun ho => ?_, fun ho => ?_⟩
  · unfold findWithHintAsk
    simp only [hp, probeAsk_valid hv i hil, Ask.run_andThen, Ask.calls_andThen, Ask.run, Ask.calls,
      ho, if_pos, List.append_nil, and_self]
  · obtain ⟨talk, st', r, h1, h2, h3, ⟨idx, h4, h5, h6⟩, h7, h8⟩ :=
      searchAsk_valid hv p w.len 0 w.len (p st (pr.key w.len i)).2 (Nat.le_refl _)
        (by have := w.len.lt_two_pow_self; omega)
    have e1 : (w.findWithHintAsk (some i)).run p st = (.ok ⟨r.map Prod.fst, (r.map Prod.snd).or (some i)⟩, st') := by
      unfold findWithHintAsk
      simp only [hp, probeAsk_valid hv i hil, Ask.run_andThen, Ask.run, if_neg ho, h2]
      cases r <;> rfl
    refine ⟨r.map Prod.fst, (r.map Prod.snd).or (some i), ?_, ?_, by rw [e1], ?_, ?_⟩
    · unfold findWithHintAsk findValueBytesAsk
      simp only [hp, probeAsk_valid hv i hil, Ask.calls_andThen, Ask.run, Ask.calls, if_neg ho,
        List.append_nil, List.cons_append, List.nil_append]
    · rw [e1]
      unfold findValueBytesAsk
      simp only [hp, Ask.run_andThen, Ask.run, h2, Res.ok_bind, Res.pure_def]
    · cases r with
      | none => intro _; rfl
      | some _ => nofun
    · intro v hr
      cases r with
      | none => cases hr
      | some y =>
        cases hr
        obtain ⟨pre, j, hj, a1, a2, a3, a4⟩ := h8 y.1 y.2 rfl
        have hle := hv.n_le hk
        have a3' : y.2 = j := by rw [a3]; exact Nat.mod_eq_of_lt (by omega)
        refine ⟨j, pr.key w.len j, by rw [← a3']; rfl, ?_⟩
        rw [← he, a2]; simp [MapPrologue.es, hj]

/-- C118: without a hint, or with one beyond the map, the hinted lookup puts the questions of the
plain lookup to the closure and returns the same value. -/
theorem C118_no_hint (q : Bytes) (hlen : q.length < 2 ^ 63) (w : IndexedMapWalker)
    (h : IndexedMapWalker.fromPayload q = .ok w) (es : List (Bytes × Bytes))
    (he : w.entries = some (.ok es)) (p : σ → Bytes → Ordering × σ) (st : σ) (hint : Option Nat)
    (hh : ∀ i, hint = some i → es[i]? = none) :
    ∃ r hint', (w.findWithHintAsk hint).calls p st = w.findValueBytesAsk.calls p st ∧
      w.findValueBytesAsk.run p st = (.ok r, ((w.findWithHintAsk hint).run p st).2) ∧
      ((w.findWithHintAsk hint).run p st).1 = .ok ⟨r, hint'⟩ ∧ (r = none → hint' = hint) ∧
      (∀ v, r = some v → ∃ j k', hint' = some j ∧ es[j]? = some (k', v)) := by
  obtain ⟨pr, hp, hv, hk, he⟩ := accepted_prologue hlen h he
  have hout : probeAsk pr w.len hint = .done (.ok none) := by
    refine probeAsk_out hint fun i hi => ?_
    have := List.getElem?_eq_none_iff.1 (hh i hi)
    rw [← he] at this; simpa [MapPrologue.es] using this
  obtain ⟨talk, st', r, h1, h2, h3, ⟨idx, h4, h5, h6⟩, h7, h8⟩ :=
    searchAsk_valid hv p w.len 0 w.len st (Nat.le_refl _) (by have := w.len.lt_two_pow_self; omega)
  have e1 : (w.findWithHintAsk hint).run p st = (.ok ⟨r.map Prod.fst, (r.map Prod.snd).or hint⟩, st') := by
    unfold findWithHintAsk
    simp only [hp, hout, Ask.run_andThen, Ask.run, h2]
    cases r <;> rfl
  refine ⟨r.map Prod.fst, (r.map Prod.snd).or hint, ?_, ?_, by rw [e1], ?_, ?_⟩
  · unfold findWithHintAsk findValueBytesAsk
    simp only [hp, hout, Ask.calls_andThen, Ask.run, Ask.calls, List.append_nil, List.nil_append]
  · rw [e1]
    unfold findValueBytesAsk
    simp only [hp, Ask.run_andThen, Ask.run, h2, Res.ok_bind, Res.pure_def]
  · cases r with
    | none => intro _; rfl
    | some _ => nofun
  · intro v hr
    cases r with
    | none => cases hr
    | some y =>
      cases hr
      obtain ⟨pre, j, hj, a1, a2, a3, a4⟩ := h8 y.1 y.2 rfl
      have hle := hv.n_le hk
      have a3' : y.2 = j := by rw [a3]; exact Nat.mod_eq_of_lt (by omega)
      refine ⟨j, pr.key w.len j, by rw [← a3']; rfl, ?_⟩
      rw [← he, a2]; simp [MapPrologue.es, hj]

/-! ### Scans -/

/-- What a hinted lookup does in a map that was accepted. -/
theorem hinted_run {w : IndexedMapWalker} {es : List (Bytes × Bytes)} (hw : w.Holds es)
    {p : σ → Bytes → Ordering × σ} {pred : Bytes → Ordering} (hp : ∀ s k, (p s k).1 = pred k)
    (hg : Guides pred (es.map Prod.fst)) (hint : Option Nat) (st : σ) :
    ∃ v hint' st', w.findValueBytes pred = .ok v ∧
      (w.findWithHintAsk hint).run p st = (.ok ⟨v, hint'⟩, st') ∧
      (∀ x, v = some x → ∃ i k, hint' = some i ∧ es[i]? = some (k, x) ∧ pred k = .eq) := by
  obtain ⟨q, hq, h1, h2⟩ := hw
  obtain ⟨v, hint', a1, a2, _, a4⟩ := C36_hint q hq w h1 es h2 pred hg hint
  refine ⟨v, hint', ((w.findWithHintAsk hint).run p st).2, a1, ?_, a4⟩
  have e := ((C118_stateless (κ := Unit) (β := Unit) (σ := σ) .default w hint unitC unitC [] st).1
    p pred hp).2.1
  rw [a2] at e
  exact Prod.ext e rfl

/-- C118: a scan finds in every map what a plain lookup finds there, whatever hint it starts
with. -/
theorem C118_scan (rows : List (IndexedMapWalker × List (Bytes × Bytes)))
    (p : σ → Bytes → Ordering × σ) (pred : Bytes → Ordering) (hp : ∀ s k, (p s k).1 = pred k)
    (hr : ∀ r ∈ rows, r.1.Holds r.2 ∧ Guides pred (r.2.map Prod.fst)) (hint : Option Nat) (st : σ) :
    (scan p (rows.map Prod.fst) hint st).map Prod.fst =
      rows.map fun r => r.1.findValueBytes pred := by
  induction rows generalizing hint st with
  | nil => rfl
  | cons r rows ih =>
    have h0 := hr r (List.mem_cons_self ..)
    obtain ⟨v, hint', st', a1, a2, a3⟩ := hinted_run h0.1 hp h0.2 hint st
    simp only [List.map_cons, scan, a2, a1]
    rw [ih (fun r h => hr r (List.mem_cons_of_mem _ h))]

/-- C118: in a scan over maps that all hold the key at the same slot, every lookup but the first
calls the closure exactly once. -/
theorem C118_scan_uniform (rows : List (IndexedMapWalker × List (Bytes × Bytes)))
    (p : σ → Bytes → Ordering × σ) (pred : Bytes → Ordering) (hp : ∀ s k, (p s k).1 = pred k)
    (hr : ∀ r ∈ rows, r.1.Holds r.2 ∧ Guides pred (r.2.map Prod.fst)) (i : Nat)
    (hi : ∀ r ∈ rows, ∃ k x, r.2[i]? = some (k, x) ∧ pred k = .eq) (hint : Option Nat) (st : σ) :
    ∀ c ∈ ((scan p (rows.map Prod.fst) hint st).map Prod.snd).tail, c = 1 := by
  have step : ∀ r ∈ rows, ∀ st, ∃ x, (r.1.findWithHintAsk (some i)).run p st =
      (.ok ⟨some x, some i⟩, ((r.1.findWithHintAsk (some i)).run p st).2) ∧
      ((r.1.findWithHintAsk (some i)).calls p st).length = 1 := by
    intro r hrm st
    obtain ⟨k, x, e1, e2⟩ := hi r hrm
    obtain ⟨⟨q, hq, h1, h2⟩, _⟩ := hr r hrm
    have := (C118_hint q hq r.1 h1 r.2 h2 p st i k x e1).1 (by rw [hp]; exact e2)
    exact ⟨x, Prod.ext (by rw [this.2]) rfl, by rw [this.1]; rfl⟩
  have all : ∀ rows' : List (IndexedMapWalker × List (Bytes × Bytes)), (∀ r ∈ rows', r ∈ rows) →
      ∀ st, ∀ c ∈ (scan p (rows'.map Prod.fst) (some i) st).map Prod.snd, c = 1 := by
    intro rows'
    induction rows' with
    | nil => intro _ _ c hc; cases hc
    | cons r rows' ih =>
      intro hm st c hc
      obtain ⟨x, e1, e2⟩ := step r (hm r (List.mem_cons_self ..)) st
      simp only [List.map_cons, scan] at hc
      rw [e1] at hc
      rcases List.mem_cons.1 hc with rfl | hc
      · exact e2
      · exact ih (fun r h => hm r (List.mem_cons_of_mem _ h)) _ c hc
  cases rows with
  | nil => intro c hc; cases hc
  | cons r rows =>
    have h0 := hr r (List.mem_cons_self ..)
    obtain ⟨v, hint', st', a1, a2, a3⟩ := hinted_run h0.1 hp h0.2 hint st
    obtain ⟨k, x, e1, e2⟩ := hi r (List.mem_cons_self ..)
    have hv : v = some x := by
      obtain ⟨q, hq, h1, h2⟩ := h0.1
      have := ((C35_accepted_lookup q hq r.1 h1 r.2 h2 pred h0.2).1 x).2
        ⟨k, List.mem_of_getElem? e1, e2⟩
      rw [a1] at this; injection this
    obtain ⟨j, k', b1, b2, b3⟩ := a3 x hv
    have hij : j = i := by
      have hg := List.pairwise_iff_getElem.1 h0.2
      obtain ⟨l1, g1⟩ := List.getElem?_eq_some_iff.1 e1
      obtain ⟨l2, g2⟩ := List.getElem?_eq_some_iff.1 b2
      have q1 : (r.2.map Prod.fst)[i]'(by simpa using l1) = k := by simp [g1]
      have q2 : (r.2.map Prod.fst)[j]'(by simpa using l2) = k' := by simp [g2]
      rcases Nat.lt_trichotomy j i with c | c | c
      · have := hg j i (by simpa using l2) (by simpa using l1) c
        rw [q1, q2, e2, b3] at this; exact absurd (this nofun) nofun
      · exact c
      · have := hg i j (by simpa using l1) (by simpa using l2) c
        rw [q1, q2, e2, b3] at this; exact absurd (this nofun) nofun
    subst hij
    simp only [List.map_cons, scan, a2, b1, List.tail_cons]
    exact all rows (fun r h => List.mem_cons_of_mem _ h) st'

/-! ### Walkers over plain maps -/

variable {ι : Type} (cfg : Cfg) (E : Env ι)

/-- C118: `find` over any map that can be read, its keys in any order, with any closure: the
closure is asked about the keys in the order they were written, until it does not answer `Less`.
On `Equal` the reader is left at the value stored with that key, otherwise after the map. -/
theorem C118_find (hE : E.Lawful) (k v : Ty ι) (s r : Bytes) (l : List (k.denote E.X × v.denote E.X))
    (h : ((Ty.vec (.pair k v)).codec cfg E).dec s = .ok (l, r))
    (p : σ → k.denote E.X → Ordering × σ) (st : σ) :
    ∃ st', (∃ pre e post r1 r2, l = pre ++ e :: post ∧
        (MapWalker.openFindAsk cfg (k.codec cfg E) (v.codec cfg E) s).calls p st =
          pre.map (fun a => (a.1, .lt)) ++ [(e.1, .eq)] ∧
        (MapWalker.openFindAsk cfg (k.codec cfg E) (v.codec cfg E) s).run p st =
          (.ok (true, r1), st') ∧
        (v.codec cfg E).dec r1 = .ok (e.2, r2) ∧
        Rd.readN post.length (pairC (k.codec cfg E) (v.codec cfg E)).dec r2 = .ok (post, r)) ∨
      (∃ pre e post, l = pre ++ e :: post ∧
        (MapWalker.openFindAsk cfg (k.codec cfg E) (v.codec cfg E) s).calls p st =
          pre.map (fun a => (a.1, .lt)) ++ [(e.1, .gt)] ∧
        (MapWalker.openFindAsk cfg (k.codec cfg E) (v.codec cfg E) s).run p st =
          (.ok (false, r), st')) ∨
      ((MapWalker.openFindAsk cfg (k.codec cfg E) (v.codec cfg E) s).calls p st =
          (l.map fun a => (a.1, .lt)) ∧
        (MapWalker.openFindAsk cfg (k.codec cfg E) (v.codec cfg E) s).run p st =
          (.ok (false, r), st')) := by
  obtain ⟨r0, h1, h2⟩ := vecC_dec_ok (c := pairC (k.codec cfg E) (v.codec cfg E)) h
  have := MapWalker.findAsk_readN (key := (k.codec cfg E).dec) (view := id) (fun _ _ _ h => h)
    (k.codec_lawful cfg hE).skip_agree (v.codec_lawful cfg hE).skip_agree p h2 st
  have e : MapWalker.new cfg s = .ok (⟨l.length⟩, r0) := by
    unfold MapWalker.new
    rw [Rd.bind_of_ok h1]; rfl
  unfold MapWalker.openFindAsk
  simp only [e]
  exact this

/-- C118: `find_bytes`, over keys marked as length-prefixed bytes, asks about their bytes in the
same way. -/
theorem C118_find_bytes (hE : E.Lawful) (k v : Ty ι) (hk : k.lengthPrefixed = true) (s r : Bytes)
    (l : List (k.denote E.X × v.denote E.X))
    (h : ((Ty.vec (.pair k v)).codec cfg E).dec s = .ok (l, r))
    (p : σ → Bytes → Ordering × σ) (st : σ) :
    ∃ st', (∃ pre e post r1 r2, l = pre ++ e :: post ∧
        (MapWalker.openFindBytesAsk cfg (k.codec cfg E) (v.codec cfg E) s).calls p st =
          pre.map (fun a => (k.raw a.1, .lt)) ++ [(k.raw e.1, .eq)] ∧
        (MapWalker.openFindBytesAsk cfg (k.codec cfg E) (v.codec cfg E) s).run p st =
          (.ok (true, r1), st') ∧
        (v.codec cfg E).dec r1 = .ok (e.2, r2) ∧
        Rd.readN post.length (pairC (k.codec cfg E) (v.codec cfg E)).dec r2 = .ok (post, r)) ∨
      (∃ pre e post, l = pre ++ e :: post ∧
        (MapWalker.openFindBytesAsk cfg (k.codec cfg E) (v.codec cfg E) s).calls p st =
          pre.map (fun a => (k.raw a.1, .lt)) ++ [(k.raw e.1, .gt)] ∧
        (MapWalker.openFindBytesAsk cfg (k.codec cfg E) (v.codec cfg E) s).run p st =
          (.ok (false, r), st')) ∨
      ((MapWalker.openFindBytesAsk cfg (k.codec cfg E) (v.codec cfg E) s).calls p st =
          (l.map fun a => (k.raw a.1, .lt)) ∧
        (MapWalker.openFindBytesAsk cfg (k.codec cfg E) (v.codec cfg E) s).run p st =
          (.ok (false, r), st')) := by
  obtain ⟨r0, h1, h2⟩ := vecC_dec_ok (c := pairC (k.codec cfg E) (v.codec cfg E)) h
  have := MapWalker.findAsk_readN (key := withLengthPrefixedBytes cfg id)
    (view := fun x : k.denote E.X => k.raw x) (fun s a r h => C24_marked cfg E k hk s r a id h)
    (k.codec_lawful cfg hE).skip_agree (v.codec_lawful cfg hE).skip_agree p h2 st
  have e : MapWalker.new cfg s = .ok (⟨l.length⟩, r0) := by
    unfold MapWalker.new
    rw [Rd.bind_of_ok h1]; rfl
  unfold MapWalker.openFindBytesAsk
  simp only [e]
  exact this

/-- The theorems applied to the map of two entries, a scan of it, and a vector of pairs. -/
example := C118_any_closure demoMapPayload (by decide) _ rfl [([1], [9]), ([2, 5], [8, 8])] rfl
  (fun (n : Nat) _ => (if n = 0 then .lt else .eq, n + 1)) 0
example := C118_hint demoMapPayload (by decide) _ rfl [([1], [9]), ([2, 5], [8, 8])] rfl
  (fun (n : Nat) _ => (if n = 0 then .lt else .eq, n + 1)) 0 1 [2, 5] [8, 8] rfl
example := C118_no_hint demoMapPayload (by decide) _ rfl [([1], [9]), ([2, 5], [8, 8])] rfl
  (fun (n : Nat) _ => (if n = 0 then .lt else .eq, n + 1)) 0 (some 7) (by simp)
example := fun w (hw : IndexedMapWalker.Holds w [([1], [9]), ([2, 5], [8, 8])]) => C118_scan
  [(w, [([1], [9]), ([2, 5], [8, 8])]), (w, [([1], [9]), ([2, 5], [8, 8])])]
  (fun (n : Nat) k => (cmpBytes k [2, 5], n + 1)) (fun k => cmpBytes k [2, 5]) (fun _ _ => rfl)
  (by
    simp only [List.mem_cons, List.not_mem_nil, or_false, or_self]
    rintro r rfl
    exact ⟨hw, show Guides _ [[1], [2, 5]] by unfold Guides; decide⟩) none 0
example := fun w (hw : IndexedMapWalker.Holds w [([1], [9]), ([2, 5], [8, 8])]) => C118_scan_uniform
  [(w, [([1], [9]), ([2, 5], [8, 8])]), (w, [([1], [9]), ([2, 5], [8, 8])])]
  (fun (n : Nat) k => (cmpBytes k [2, 5], n + 1)) (fun k => cmpBytes k [2, 5]) (fun _ _ => rfl)
  (by
    simp only [List.mem_cons, List.not_mem_nil, or_false, or_self]
    rintro r rfl
    exact ⟨hw, show Guides _ [[1], [2, 5]] by unfold Guides; decide⟩) 1
  (by
    simp only [List.mem_cons, List.not_mem_nil, or_false, or_self]
    rintro r rfl
    exact ⟨_, _, rfl, by decide⟩) none 0
example := C118_find .default demoEnv demoEnv_lawful (.int .u8) .bool [3, 5, 0, 2, 0, 9, 1, 77] [77]
  [(5, false), (2, false), (9, true)] (by decide +kernel) (fun (c : Nat) _ => (if c < 2 then .lt else .eq, c + 1)) 0
example := C118_find_bytes .default demoEnv demoEnv_lawful .string .bool rfl [2, 1, 97, 0, 1, 98, 1, 77] [77]
  [("a", false), ("b", true)] (by decide +kernel) (fun (c : Nat) _ => (if c < 2 then .lt else .eq, c + 1)) 0
example (w : IndexedMapWalker) (h : fromPayload demoMapPayload = .ok w) := C118_few_calls w 2 (by cases h; decide) (fun (n : Nat) _ => (.lt, n + 1)) 0 (some 1)

/-! ### Cases -/

/-- A closure that writes down the keys it is asked about and looks for `key`. -/
def logging [DecidableEq κ] (cmp : κ → κ → Ordering) (key : κ) :
    List κ → κ → Ordering × List κ := fun seen k => (cmp k key, seen ++ [k])

/-- It looks for `[2, 5]` among two keys: one call. -/
example : ∃ w, IndexedMapWalker.fromPayload demoMapPayload = .ok w ∧ w.len < 2 ^ 2 ∧
    w.findValueBytesAsk.run (logging cmpBytes [2, 5]) [] = (.ok (some [8, 8]), [[2, 5]]) ∧
    w.findValueBytesAsk.run (logging cmpBytes [1]) [] = (.ok (some [9]), [[2, 5], [1]]) ∧
    (w.findWithHintAsk (some 0)).run (logging cmpBytes [1]) [] =
      (.ok ⟨some [9], some 0⟩, [[1]]) ∧
    (w.findWithHintAsk (some 0)).run (logging cmpBytes [2, 5]) [] =
      (.ok ⟨some [8, 8], some 1⟩, [[1], [2, 5]]) ∧
    (w.findWithHintAsk (some 7)).run (logging cmpBytes [3]) [] =
      (.ok ⟨none, some 7⟩, [[2, 5]]) :=
  ⟨_, rfl, by decide, by decide +kernel, by decide +kernel, by decide +kernel, by decide +kernel,
    by decide +kernel⟩

/-- The bound on the calls is met: two entries, `2 < 2 ^ 2`, and two calls. -/
example : ∃ w, IndexedMapWalker.fromPayload demoMapPayload = .ok w ∧
    w.findValueBytesAsk.calls (logging cmpBytes [1]) [] = [([2, 5], .gt), ([1], .eq)] :=
  ⟨_, rfl, by decide +kernel⟩

/-- The map of the example is one a scan may meet, and a scan of three of them takes 2, 1 and 1
calls. -/
example : ∃ w : IndexedMapWalker, w.Holds [([1], [9]), ([2, 5], [8, 8])] ∧
    Guides (fun k => cmpBytes k [1]) [[1], [2, 5]] ∧
    scan (logging cmpBytes [1]) [w, w, w] none [] =
      [(.ok (some [9]), 2), (.ok (some [9]), 1), (.ok (some [9]), 1)] := by
  refine ⟨_, ⟨demoMapPayload, by decide, rfl, rfl⟩, ?_, by decide +kernel⟩
  unfold Guides
  decide

/-- Keys 5, 2, 9 out of order, and a closure that answers `Less` twice and then `Equal`. -/
example :
    (MapWalker.openFindAsk .default ((Ty.int .u8 : Ty Empty).codec .default demoEnv)
      ((Ty.bool : Ty Empty).codec .default demoEnv) [3, 5, 0, 2, 0, 9, 1, 77]).run
      (fun (c : Nat) _ => (if c < 2 then .lt else .eq, c + 1)) 0 =
      (.ok (true, [1, 77]), 3) := by decide +kernel

end Revision
