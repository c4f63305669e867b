import Verif.Proofs.MapWalk
import Verif.Spec.Search

/-! # Properties of the indexed walkers on arbitrary bytes: C35–C38

Payload lengths are below `2^63`, as for every Rust slice. -/

namespace Revision

open IndexedMapWalker (fromPayload)

/-- An accepted indexed payload. -/
theorem mapAccepted {p : Bytes} (hlen : p.length < 2 ^ 63) {w : IndexedMapWalker}
    (h : IndexedMapWalker.fromPayload p = .ok w) (hi : w.isIndexed = true) :
    ∃ pr, IndexedMapWalker.Sits p w pr ∧ pr.Valid w.len := by
  have o := mapOutcome p hlen true
  rw [show IndexedMapWalker.fromPayloadInner p true = .ok w from h] at o
  cases o with
  | legacy _ hn _ => simp [IndexedMapWalker.isIndexed, hn] at hi
  | indexed _ pr hs hv => exact ⟨pr, hs, hv rfl⟩

/-! ### C35: accepted map payloads -/

/-- C35: an accepted indexed payload enumerates as many entries as it declares, with strictly
ascending keys; the keys are adjacent slices of the payload, and so are the values behind them. -/
theorem C35_accepted_layout (p : Bytes) (hlen : p.length < 2 ^ 63) (w : IndexedMapWalker)
    (h : IndexedMapWalker.fromPayload p = .ok w) (hi : w.isIndexed = true) :
    ∃ es : List (Bytes × Bytes), w.entries = some (.ok es) ∧ es.length = w.len ∧ 0 < w.len ∧
      Ascending (es.map Prod.fst) ∧
      ∃ head gap tail, p = head ++ (es.map Prod.fst).flatten ++ gap ++
        (es.map Prod.snd).flatten ++ tail := by
  obtain ⟨pr, hs, hv⟩ := mapAccepted hlen h hi
  refine ⟨pr.es w.len, entries_valid hs.pro hv, by simp [MapPrologue.es], hv.pos, ?_, ?_⟩
  · unfold Ascending
    rw [List.pairwise_iff_getElem]
    intro i j h1 h2 hij
    simp only [MapPrologue.es, List.map_map, List.length_map, List.length_range] at h2
    simp only [MapPrologue.es, List.map_map, List.getElem_map, List.getElem_range,
      Function.comp_apply]
    exact hv.keys_lt i j hij h2
  · obtain ⟨hd, post, e⟩ := hs.parts
    have ke := (slices_flatten pr.keys (pr.K w.len) w.len hv.kMono).1
    have ve := (slices_flatten pr.vals (pr.V w.len) w.len hv.vMono).1
    have k1 : pr.K w.len w.len = pr.keys.length := by unfold MapPrologue.K; simp
    have v1 : pr.V w.len w.len = pr.vals.length := by unfold MapPrologue.V; simp
    rw [k1, slice_to_end] at ke
    rw [v1, slice_to_end] at ve
    have e1 : (pr.es w.len).map Prod.fst =
        (List.range w.len).map fun i => slice pr.keys (pr.K w.len i) (pr.K w.len (i + 1)) := by
      simp [MapPrologue.es, MapPrologue.key]
    have e2 : (pr.es w.len).map Prod.snd =
        (List.range w.len).map fun i => slice pr.vals (pr.V w.len i) (pr.V w.len (i + 1)) := by
      simp [MapPrologue.es, MapPrologue.val]
    refine ⟨hd ++ (pr.table ++ (leBytes 4 pr.keys.length ++ (leBytes 4 pr.vals.length ++
      pr.keys.take (pr.K w.len 0)))), pr.vals.take (pr.V w.len 0), post, ?_⟩
    rw [e1, e2, ke, ve, e]
    simp only [List.append_assoc]
    rw [← List.append_assoc (pr.keys.take _), List.take_append_drop,
      ← List.append_assoc (pr.vals.take _) (pr.vals.drop _), List.take_append_drop]

/-- C35: a lookup over an accepted payload, with any predicate consistent with the key order,
succeeds; it returns a value exactly if some entry's key matches, namely that entry's value. -/
theorem C35_accepted_lookup (p : Bytes) (hlen : p.length < 2 ^ 63) (w : IndexedMapWalker)
    (h : IndexedMapWalker.fromPayload p = .ok w) (es : List (Bytes × Bytes))
    (he : w.entries = some (.ok es)) (pred : Bytes → Ordering)
    (hg : Guides pred (es.map Prod.fst)) :
    (∀ v, w.findValueBytes pred = .ok (some v) ↔ ∃ k, (k, v) ∈ es ∧ pred k = .eq) ∧
    (w.findValueBytes pred = .ok none ↔ ∀ e ∈ es, pred e.1 ≠ .eq) := by
  have hi : w.isIndexed = true := by
    unfold IndexedMapWalker.entries at he
    unfold IndexedMapWalker.isIndexed
    cases hp : w.prologue with
    | none => rw [hp] at he; cases he
    | some _ => rfl
  obtain ⟨pr, hs, hv⟩ := mapAccepted hlen h hi
  rw [entries_valid hs.pro hv] at he
  injection he with he; injection he with he
  have hg' : ∀ i j, i < j → j < w.len → pred (pr.key w.len j) ≠ .gt → pred (pr.key w.len i) = .lt := by
    intro i j hij hj
    have := List.pairwise_iff_getElem.1 hg i j (by simp [← he, MapPrologue.es]; omega)
      (by simp [← he, MapPrologue.es]; omega) hij
    simpa [← he, MapPrologue.es] using this
  have mem : ∀ k v, (k, v) ∈ es ↔ ∃ i, i < w.len ∧ pr.key w.len i = k ∧ pr.val w.len i = v := by
    intro k v
    rw [← he]; simp only [MapPrologue.es, List.mem_map, List.mem_range, Prod.mk.injEq]
  have uniq : ∀ i j, i < w.len → j < w.len → pred (pr.key w.len i) = .eq →
      pred (pr.key w.len j) = .eq → i = j := by
    intro i j hi hj h1 h2
    rcases Nat.lt_trichotomy i j with hlt | heq | hgt
    · have := hg' i j hlt hj (by simp [h2]); rw [h1] at this; cases this
    · exact heq
    · have := hg' j i hgt hi (by simp [h1]); rw [h2] at this; cases this
  have sp := searchLoop_spec hv pred hg' _ 0 w.len rfl (Nat.le_refl _) (fun i h => by omega)
    (fun i h1 h2 => by omega)
  unfold IndexedMapWalker.findValueBytes
  simp only [hs.pro]
  rcases sp with ⟨i, hi, hpi, hr⟩ | ⟨hno, hr⟩
  · rw [hr]
    refine ⟨fun v => ?_, ?_⟩
    · simp only [Res.ok_bind, Option.map_some, Res.pure_def, Res.ok.injEq, Option.some.injEq]
      constructor
      · rintro rfl; exact ⟨_, (mem _ _).2 ⟨i, hi, rfl, rfl⟩, hpi⟩
      · rintro ⟨k, hk, hpk⟩
        obtain ⟨j, hj, rfl, rfl⟩ := (mem _ _).1 hk
        rw [uniq i j hi hj hpi hpk]
    · simp only [Res.ok_bind, Option.map_some, Res.pure_def, Res.ok.injEq]
      refine ⟨nofun, fun hall => absurd hpi (hall (_, pr.val w.len i) ((mem _ _).2 ⟨i, hi, rfl, rfl⟩))⟩
  · rw [hr]
    refine ⟨fun v => ?_, ?_⟩
    · simp only [Res.ok_bind, Option.map_none, Res.pure_def, Res.ok.injEq]
      refine ⟨nofun, ?_⟩
      rintro ⟨k, hk, hpk⟩
      obtain ⟨j, hj, rfl, rfl⟩ := (mem _ _).1 hk
      exact absurd hpk (hno j hj)
    · simp only [Res.ok_bind, Option.map_none, Res.pure_def, true_iff]
      intro e hem hpe
      obtain ⟨j, hj, h1, _⟩ := (mem e.1 e.2).1 hem
      rw [← h1] at hpe; exact hno j hj hpe

theorem cmp_lt_ne_gt (a b c : Bytes) (h1 : cmpBytes a b = .lt) (h2 : cmpBytes b c ≠ .gt) :
    cmpBytes a c = .lt := by
  cases h : cmpBytes b c with
  | lt => exact cmpBytes_lt_trans h1 h
  | eq => rw [cmpBytes_eq] at h; rw [← h]; exact h1
  | gt => exact absurd h h2

/-- C35: looking up a key in an accepted payload returns the value stored with it iff the key is
present. -/
theorem C35_accepted_key (p : Bytes) (hlen : p.length < 2 ^ 63) (w : IndexedMapWalker)
    (h : IndexedMapWalker.fromPayload p = .ok w) (es : List (Bytes × Bytes))
    (he : w.entries = some (.ok es)) (hasc : Ascending (es.map Prod.fst)) (key : Bytes) :
    (∀ v, w.findValueBytes (fun k => cmpBytes k key) = .ok (some v) ↔ (key, v) ∈ es) ∧
    (w.findValueBytes (fun k => cmpBytes k key) = .ok none ↔ key ∉ es.map Prod.fst) := by
  obtain ⟨h1, h2⟩ := C35_accepted_lookup p hlen w h es he _ (hasc.guides cmp_lt_ne_gt key)
  refine ⟨fun v => ?_, ?_⟩
  · rw [h1]
    constructor
    · rintro ⟨k, hk, e⟩; rw [cmpBytes_eq] at e; subst e; exact hk
    · intro hk; exact ⟨key, hk, cmpBytes_self _⟩
  · rw [h2]
    constructor
    · intro hall hk
      obtain ⟨e, he, rfl⟩ := List.mem_map.1 hk
      exact hall e he (cmpBytes_self _)
    · intro hno e he' heq
      rw [cmpBytes_eq] at heq
      exact hno (heq ▸ List.mem_map.2 ⟨e, he', rfl⟩)

/-- A payload with the two entries `[1] ↦ [9]` and `[2, 5] ↦ [8, 8]`. -/
def demoMapPayload : Bytes :=
  [1, 2, 0, 0, 0, 0, 0, 0, 0, 0, 1, 0, 0, 0, 1, 0, 0, 0, 3, 0, 0, 0, 3, 0, 0, 0, 1, 2, 5, 9, 8, 8]

/-- It is accepted, and enumerates them. -/
example : ∃ w, IndexedMapWalker.fromPayload demoMapPayload = .ok w ∧ w.isIndexed = true ∧
    w.entries = some (.ok [([1], [9]), ([2, 5], [8, 8])]) :=
  ⟨_, rfl, rfl, rfl⟩

/-- The hypotheses of the lookup theorems hold of it. -/
example (w : IndexedMapWalker) (h : IndexedMapWalker.fromPayload demoMapPayload = .ok w) :
    w.findValueBytes (fun k => cmpBytes k [2, 5]) = .ok (some [8, 8]) := by
  have e : w.entries = some (.ok [([1], [9]), ([2, 5], [8, 8])]) := by
    have : IndexedMapWalker.fromPayload demoMapPayload = .ok _ := rfl
    rw [this] at h; injection h with h; subst h; rfl
  refine ((C35_accepted_key demoMapPayload (by decide) w h _ e ?_ [2, 5]).1 _).2 (by simp)
  unfold Ascending
  decide

/-! ### C36: hinted lookup -/

/-- C36: with any hint, the hinted lookup returns what the plain lookup returns.  The hint handed
back is the index of the found entry, or the original hint if nothing was found. -/
theorem C36_hint (p : Bytes) (hlen : p.length < 2 ^ 63) (w : IndexedMapWalker)
    (h : IndexedMapWalker.fromPayload p = .ok w) (es : List (Bytes × Bytes))
    (he : w.entries = some (.ok es)) (pred : Bytes → Ordering)
    (hg : Guides pred (es.map Prod.fst)) (hint : Option Nat) :
    ∃ v hint', w.findValueBytes pred = .ok v ∧ w.findWithHint hint pred = .ok ⟨v, hint'⟩ ∧
      (v = none → hint' = hint) ∧
      (∀ x, v = some x → ∃ i k, hint' = some i ∧ es[i]? = some (k, x) ∧ pred k = .eq) := by
  have hi : w.isIndexed = true := by
    unfold IndexedMapWalker.entries at he
    unfold IndexedMapWalker.isIndexed
    cases hp : w.prologue with
    | none => rw [hp] at he; cases he
    | some _ => rfl
  obtain ⟨pr, hs, hv⟩ := mapAccepted hlen h hi
  rw [entries_valid hs.pro hv] at he
  injection he with he; injection he with he
  have hg' : ∀ i j, i < j → j < w.len → pred (pr.key w.len j) ≠ .gt → pred (pr.key w.len i) = .lt := by
    intro i j hij hj
    have := List.pairwise_iff_getElem.1 hg i j (by simp [← he, MapPrologue.es]; omega)
      (by simp [← he, MapPrologue.es]; omega) hij
    simpa [← he, MapPrologue.es] using this
  have get : ∀ i, i < w.len → es[i]? = some (pr.key w.len i, pr.val w.len i) := by
    intro i hi
    rw [← he]; simp [MapPrologue.es, hi]
  have uniq : ∀ i j, i < w.len → j < w.len → pred (pr.key w.len i) = .eq →
      pred (pr.key w.len j) = .eq → i = j := by
    intro i j hi hj h1 h2
    rcases Nat.lt_trichotomy i j with hlt | heq | hgt
    · have := hg' i j hlt hj (by simp [h2]); rw [h1] at this; cases this
    · exact heq
    · have := hg' j i hgt hi (by simp [h1]); rw [h2] at this; cases this
  have sp := searchLoop_spec hv pred hg' _ 0 w.len rfl (Nat.le_refl _) (fun i h => by omega)
    (fun i h1 h2 => by omega)
  have hle := hv.n_le hs.kLt
  unfold IndexedMapWalker.findValueBytes IndexedMapWalker.findWithHint
  simp only [hs.pro, probe_valid hv, Res.ok_bind]
  rcases sp with ⟨i, hi, hpi, hr⟩ | ⟨hno, hr⟩
  · have him : i % 2 ^ 32 = i := Nat.mod_eq_of_lt (by omega)
    rw [him] at hr
    refine ⟨some (pr.val w.len i), some i, ?_, ?_, nofun, ?_⟩
    · rw [hr]; rfl
    · cases hint with
      | none => simp only [hr]; rfl
      | some hh =>
        simp only
        by_cases c : hh < w.len ∧ pred (pr.key w.len hh) = .eq
        · rw [if_pos c]
          have := uniq hh i c.1 hi c.2 hpi
          subst this; rfl
        · rw [if_neg c]; simp only [hr]; rfl
    · intro x hx; injection hx with hx; subst hx
      exact ⟨i, _, rfl, get i hi, hpi⟩
  · refine ⟨none, hint, ?_, ?_, fun _ => rfl, nofun⟩
    · rw [hr]; rfl
    · cases hint with
      | none => simp only [hr]; rfl
      | some hh =>
        simp only
        rw [if_neg (fun c => hno hh c.1 c.2)]; simp only [hr]; rfl

/-- C36: on a payload written without a table both lookups are the same error. -/
theorem C36_legacy (w : IndexedMapWalker) (h : w.isIndexed = false) (hint : Option Nat)
    (pred : Bytes → Ordering) :
    w.findValueBytes pred = .err .deserialize ∧ w.findWithHint hint pred = .err .deserialize := by
  have hp : w.prologue = none := by
    unfold IndexedMapWalker.isIndexed at h; cases hp : w.prologue with
    | none => rfl
    | some _ => rw [hp] at h; cases h
  unfold IndexedMapWalker.findValueBytes IndexedMapWalker.findWithHint
  rw [hp]; exact ⟨rfl, rfl⟩

/-- The demo payload with a wrong, a right and an out-of-range hint. -/
example (w : IndexedMapWalker) (h : IndexedMapWalker.fromPayload demoMapPayload = .ok w) :
    w.findWithHint (some 0) (fun k => cmpBytes k [2, 5]) = .ok ⟨some [8, 8], some 1⟩ ∧
    w.findWithHint (some 1) (fun k => cmpBytes k [2, 5]) = .ok ⟨some [8, 8], some 1⟩ ∧
    w.findWithHint (some 7) (fun k => cmpBytes k [3]) = .ok ⟨none, some 7⟩ := by
  have e : w.entries = some (.ok [([1], [9]), ([2, 5], [8, 8])]) := by
    have : IndexedMapWalker.fromPayload demoMapPayload = .ok _ := rfl
    rw [this] at h; injection h with h; subst h; rfl
  have asc : Ascending ([([1], [9]), ([2, 5], [8, 8])].map Prod.fst) := by
    unfold Ascending
    decide
  have key := C35_accepted_key demoMapPayload (by decide) w h _ e asc
  have hin := fun k => C36_hint demoMapPayload (by decide) w h _ e _ (asc.guides cmp_lt_ne_gt k)
  have find : ∀ h', (∃ v hint', w.findValueBytes (fun k => cmpBytes k [2, 5]) = .ok v ∧
      w.findWithHint h' (fun k => cmpBytes k [2, 5]) = .ok ⟨v, hint'⟩ ∧ (v = none → hint' = h') ∧
      (∀ x, v = some x → ∃ i k, hint' = some i ∧
        [([1], [9]), ([2, 5], [8, 8])][i]? = some (k, x) ∧ cmpBytes k [2, 5] = .eq)) →
      w.findWithHint h' (fun k => cmpBytes k [2, 5]) = .ok ⟨some [8, 8], some 1⟩ := by
    rintro h' ⟨v, h2, a, b, _, c⟩
    rw [((key [2, 5]).1 [8, 8]).2 (by simp)] at a
    injection a with a; subst a
    obtain ⟨i, k, rfl, hget, _⟩ := c _ rfl
    match i, hget with
    | 0, hget => simp at hget
    | 1, _ => exact b
  refine ⟨find _ (hin _ _), find _ (hin _ _), ?_⟩
  obtain ⟨v, h2, a, b, c, _⟩ := hin [3] (some 7)
  rw [((key [3]).2).2 (by simp)] at a
  injection a with a; subst a
  rw [b, c rfl]

/-! ### C37: walkers built without validation -/

theorem getD_infix {b p : Bytes} (h : b <:+: p) (i j : Nat) : (getR b i j).getD [] <:+: p := by
  cases hg : getR b i j with
  | none => exact (List.nil_infix)
  | some x =>
    have := (getR_eq_some.1 hg).2.2
    rw [this]; exact (slice_infix _ _ _).trans h

/-- C37: a map walker built without validation never panics on access: enumeration yields
sub-slices of the payload, and both lookups return a sub-slice, nothing, or a typed error. -/
theorem C37_map (p : Bytes) (hlen : p.length < 2 ^ 63) (w : IndexedMapWalker)
    (h : IndexedMapWalker.fromPayloadUnvalidated p = .ok w) :
    (w.entries = none ∨ ∃ es, w.entries = some (.ok es) ∧ es.length = w.len ∧
      ∀ e ∈ es, e.1 <:+: p ∧ e.2 <:+: p) ∧
    (∀ pred, w.findValueBytes pred = .ok none ∨
      (∃ v, v <:+: p ∧ w.findValueBytes pred = .ok (some v)) ∨
      ∃ e, w.findValueBytes pred = .err e) ∧
    (∀ hint pred, (∃ h', w.findWithHint hint pred = .ok ⟨none, h'⟩) ∨
      (∃ v h', v <:+: p ∧ w.findWithHint hint pred = .ok ⟨some v, h'⟩) ∨
      ∃ e, w.findWithHint hint pred = .err e) := by
  have o := mapOutcome p hlen false
  rw [show IndexedMapWalker.fromPayloadInner p false = .ok w from h] at o
  cases o with
  | legacy _ hn _ =>
    refine ⟨.inl (by unfold IndexedMapWalker.entries; rw [hn]; rfl), fun pred => ?_,
      fun hint pred => ?_⟩
    · exact .inr (.inr ⟨.deserialize, by unfold IndexedMapWalker.findValueBytes; rw [hn]⟩)
    · exact .inr (.inr ⟨.deserialize, by unfold IndexedMapWalker.findWithHint; rw [hn]⟩)
  | indexed _ pr hs _ =>
    obtain ⟨hd, post, e⟩ := hs.parts
    have ki : pr.keys <:+: p := by
      rw [e]
      exact ⟨hd ++ (pr.table ++ (leBytes 4 pr.keys.length ++ leBytes 4 pr.vals.length)),
        pr.vals ++ post, by simp only [List.append_assoc]⟩
    have vi : pr.vals <:+: p := by
      rw [e]
      exact ⟨hd ++ (pr.table ++ (leBytes 4 pr.keys.length ++ (leBytes 4 pr.vals.length ++ pr.keys))),
        post, by simp only [List.append_assoc]⟩
    refine ⟨.inr ⟨_, entries_eq hs.pro hs.table, by simp, ?_⟩, fun pred => ?_, fun hint pred => ?_⟩
    · intro x hx
      obtain ⟨j, _, rfl⟩ := List.mem_map.1 hx
      exact ⟨getD_infix ki _ _, getD_infix vi _ _⟩
    · have sf := searchLoop_safe hs.table pred _ 0 w.len rfl (Nat.le_refl _)
      unfold IndexedMapWalker.findValueBytes
      simp only [hs.pro]
      rcases sf with ⟨i, _, _, hr⟩ | hr | ⟨x, y, hr⟩
      · exact .inr (.inl ⟨_, (slice_infix _ _ _).trans vi, by rw [hr]; rfl⟩)
      · exact .inl (by rw [hr]; rfl)
      · exact .inr (.inr ⟨_, by rw [hr]; rfl⟩)
    · have sf := searchLoop_safe hs.table pred _ 0 w.len rfl (Nat.le_refl _)
      unfold IndexedMapWalker.findWithHint
      simp only [hs.pro]
      rcases probe_safe hs.table hint pred with hp | ⟨i, v, _, _, hgv, hp⟩
      · rw [hp]
        simp only [Res.ok_bind]
        rcases sf with ⟨i, _, _, hr⟩ | hr | ⟨x, y, hr⟩
        · exact .inr (.inl ⟨_, _, (slice_infix _ _ _).trans vi, by rw [hr]; rfl⟩)
        · exact .inl ⟨_, by rw [hr]; rfl⟩
        · exact .inr (.inr ⟨_, by rw [hr]; rfl⟩)
      · rw [hp]
        have := (getR_eq_some.1 hgv).2.2
        exact .inr (.inl ⟨v, _, this ▸ (slice_infix _ _ _).trans vi, rfl⟩)

/-- Inverted key offsets, `1` before `0`: enumeration clamps, lookup reports the offset. -/
example : ∃ w, IndexedMapWalker.fromPayloadUnvalidated
    [1, 2, 1, 0, 0, 0, 0, 0, 0, 0, 0, 0, 0, 0, 0, 0, 0, 0, 1, 0, 0, 0, 1, 0, 0, 0, 5, 6] = .ok w ∧
    w.entries = some (.ok [([], []), ([5], [6])]) ∧
    w.findValueBytes (fun _ => .gt) = .err (.offsetOutOfRange 0 1) := by
  refine ⟨_, rfl, rfl, ?_⟩
  unfold IndexedMapWalker.findValueBytes
  simp only
  rw [IndexedMapWalker.searchLoop]
  simp only [MapPrologue.entryRanges, MapPrologue.keyOff, MapPrologue.valOff]
  rw [IndexedMapWalker.searchLoop]
  rfl

theorem getD_get {l : List Nat} {i d : Nat} (h : i < l.length) : l.getD i d = l[i] := by
  simp [List.getD_eq_getElem?_getD, h]

theorem getD_out {l : List Nat} {i d : Nat} (h : l.length ≤ i) : l.getD i d = d := by
  simp [List.getD_eq_getElem?_getD, h]

/-- C37: element access on a sequence walker built without validation returns a sub-slice of the
payload, or an error, or panics — the last exactly when the element's offsets are inverted or
past the end of the body, as documented.  It never hands out bytes from elsewhere. -/
theorem C37_seq (p : Bytes) (w : IndexedSeqWalker)
    (h : IndexedSeqWalker.fromPayloadUnvalidated p = .ok w) (i : Nat) :
    (∀ b, w.elementBytes i = .ok b → b <:+: p) ∧
    (w.elementBytes i = .panic ↔ ∃ offs : List Nat, (∀ o ∈ offs, o < 2 ^ 32) ∧
      w.offsets = some (offs.map (leBytes 4)).flatten ∧ i < offs.length ∧
      ¬ (offs.getD i 0 ≤ offs.getD (i + 1) w.body.length ∧
        offs.getD (i + 1) w.body.length ≤ w.body.length)) := by
  have o := seqOutcome p false
  rw [show IndexedSeqWalker.fromPayloadInner p false = .ok w from h] at o
  cases o with
  | legacy _ hn _ =>
    have : w.elementBytes i = .err .deserialize := by
      unfold IndexedSeqWalker.elementBytes; rw [hn]
    rw [this, hn]
    exact ⟨nofun, nofun, by rintro ⟨_, _, h, _⟩; cases h⟩
  | indexed _ offsets ho hT hparts _ =>
    obtain ⟨hd, hparts⟩ := hparts
    have bi : w.body <:+: p := by
      rw [hparts]; exact ⟨hd ++ offsets, [], by simp only [List.append_assoc, List.append_nil]⟩
    by_cases hi : i < w.len
    · rw [elementBytes_eq ho hT hi]
      refine ⟨fun b hb => ?_, ?_⟩
      · rw [sliceR_eq_ok] at hb
        rw [hb.2.2]; exact (slice_infix _ _ _).trans bi
      · have get : ∀ offs : List Nat, (∀ o ∈ offs, o < 2 ^ 32) → offsets = tbl offs →
            offs.length = w.len → ∀ j, offs.getD j w.body.length = seqOff offsets w.body w.len j := by
          intro offs hb ht hl j
          unfold seqOff
          by_cases hj : j < w.len
          · rw [if_pos hj, getD_get (by omega)]
            have := u32At_tbl offs [] j (by omega) (hb _ (List.getElem_mem _))
            rw [List.append_nil, ← ht] at this
            exact this.symm
          · rw [if_neg hj, getD_out (by omega)]
        have pan : sliceR w.body (seqOff offsets w.body w.len i)
            (seqOff offsets w.body w.len (i + 1)) = .panic ↔
            ¬ (seqOff offsets w.body w.len i ≤ seqOff offsets w.body w.len (i + 1) ∧
              seqOff offsets w.body w.len (i + 1) ≤ w.body.length) := by
          unfold sliceR
          split
          · rename_i c; exact ⟨nofun, fun hn => absurd c hn⟩
          · rename_i c; exact ⟨fun _ => c, fun _ => rfl⟩
        rw [pan]
        constructor
        · intro hbad
          obtain ⟨offs, h1, h2, h3⟩ := exists_tbl w.len offsets hT
          refine ⟨offs, h3, by rw [ho, h2]; rfl, by omega, ?_⟩
          have e0 := get offs h3 h2 h1 i
          have e0' : offs.getD i 0 = offs.getD i w.body.length := by
            rw [getD_get (by omega), getD_get (by omega)]
          rw [e0', e0, get offs h3 h2 h1 (i + 1)]
          exact hbad
        · rintro ⟨offs, h3, h2, h4, hbad⟩
          have h2 : offsets = tbl offs := by rw [ho] at h2; injection h2
          have h1 : offs.length = w.len := by
            have := tbl_length offs; rw [← h2] at this; omega
          have e0' : offs.getD i 0 = offs.getD i w.body.length := by
            rw [getD_get (by omega), getD_get (by omega)]
          rw [e0', get offs h3 h2 h1 i, get offs h3 h2 h1 (i + 1)] at hbad
          exact hbad
    · rw [elementBytes_out (by omega)]
      refine ⟨nofun, nofun, ?_⟩
      rintro ⟨offs, _, h2, h4, _⟩
      have h2 : offsets = tbl offs := by rw [ho] at h2; injection h2
      have := tbl_length offs; rw [← h2] at this; omega

/-- C37: the same for fields of an indexed struct. -/
theorem C37_struct (p : Bytes) (rev n : Nat) (w : IndexedStructWalker)
    (h : IndexedStructWalker.fromPayloadUnvalidated p rev n = .ok w) (i : Nat) :
    (∀ b, w.fieldBytes i = .ok b → b <:+: p) ∧
    (w.fieldBytes i = .panic ↔ ∃ (offs : List Nat) (rest : Bytes), (∀ o ∈ offs, o < 2 ^ 32) ∧
      p = (offs.map (leBytes 4)).flatten ++ rest ∧ offs.length = n ∧ i < n ∧
      ¬ (offs.getD i 0 ≤ offs.getD (i + 1) p.length ∧ offs.getD (i + 1) p.length ≤ p.length)) := by
  unfold IndexedStructWalker.fromPayloadUnvalidated at h
  split at h
  · cases h
  rename_i hl
  injection h with h; subst h
  let f : Nat → Nat := fun j => if j < n then u32At p (j * 4) else p.length
  by_cases hi : i < n
  case neg =>
    have : (⟨p, n, rev⟩ : IndexedStructWalker).fieldBytes i = .err .deserialize := by
      rw [IndexedStructWalker.fieldBytes]; simp only [ge_iff_le]; rw [if_pos (by omega)]
    rw [this]
    exact ⟨nofun, nofun, by rintro ⟨_, _, _, _, _, h, _⟩; exact absurd h hi⟩
  have e : (⟨p, n, rev⟩ : IndexedStructWalker).fieldBytes i = sliceR p (f i) (f (i + 1)) := by
    rw [IndexedStructWalker.fieldBytes]
    simp only [IndexedStructWalker.offset, ge_iff_le]
    rw [if_neg (by omega), decodeU32At_ok (by omega), Res.ok_bind]
    simp only [f, if_pos hi]
    by_cases hn : i + 1 < n
    · rw [if_pos hn, decodeU32At_ok (by omega)]; simp only [if_pos hn]; rfl
    · rw [if_neg hn]; simp only [if_neg hn]; rfl
  rw [e]
  refine ⟨fun b hb => ?_, ?_⟩
  · rw [sliceR_eq_ok] at hb
    rw [hb.2.2]; exact slice_infix _ _ _
  · have get : ∀ (offs : List Nat) (rest : Bytes), (∀ o ∈ offs, o < 2 ^ 32) → p = tbl offs ++ rest →
        offs.length = n → ∀ j, offs.getD j p.length = f j := by
      intro offs rest hb ht hl j
      simp only [f]
      by_cases hj : j < n
      · rw [if_pos hj, getD_get (by omega)]
        have := u32At_tbl offs rest j (by omega) (hb _ (List.getElem_mem _))
        rw [← ht] at this
        exact this.symm
      · rw [if_neg hj, getD_out (by omega)]
    have pan : sliceR p (f i) (f (i + 1)) = .panic ↔ ¬ (f i ≤ f (i + 1) ∧ f (i + 1) ≤ p.length) := by
      unfold sliceR
      split
      · rename_i c; exact ⟨nofun, fun hn => absurd c hn⟩
      · rename_i c; exact ⟨fun _ => c, fun _ => rfl⟩
    rw [pan]
    constructor
    · intro hbad
      obtain ⟨offs, h1, h2, h3⟩ := exists_tbl n (p.take (n * 4)) (by simp; omega)
      have hp : p = tbl offs ++ p.drop (n * 4) := by rw [← h2, List.take_append_drop]
      refine ⟨offs, p.drop (n * 4), h3, hp, h1, hi, ?_⟩
      have e0' : offs.getD i 0 = offs.getD i p.length := by
        rw [getD_get (by omega), getD_get (by omega)]
      rw [e0', get offs _ h3 hp h1 i, get offs _ h3 hp h1 (i + 1)]
      exact hbad
    · rintro ⟨offs, rest, h3, hp, h1, _, hbad⟩
      have e0' : offs.getD i 0 = offs.getD i p.length := by
        rw [getD_get (by omega), getD_get (by omega)]
      rw [e0', get offs rest h3 hp h1 i, get offs rest h3 hp h1 (i + 1)] at hbad
      exact hbad

/-! ### C38: construction -/

/-- What C38 asserts of the map walkers. -/
def MapConstructionSafe : Prop :=
  ∀ p : Bytes, p.length < 2 ^ 63 → IndexedMapWalker.fromPayload p ≠ .panic ∧
    IndexedMapWalker.fromPayloadUnvalidated p ≠ .panic

/-- C38 is false: the validating map constructor panics on a payload whose header says "indexed"
and whose length is zero. -/
theorem C38_empty_indexed_map_false : ¬ MapConstructionSafe := by
  intro h
  exact (h [1, 0, 0, 0, 0, 0, 0, 0, 0, 0] (by decide)).1 (by decide)

/-- C38 is false: with a declared length of `2^61 - 1` the end of the table overflows `usize`, and
both map constructors panic. -/
theorem C38_map_overflow_false : ¬ MapConstructionSafe := by
  intro h
  exact (h [1, 253, 255, 255, 255, 255, 255, 255, 255, 31] (by decide)).2 (by decide)

/-- C38 is false for sequences too: a declared length of `2^62 - 1`. -/
theorem C38_seq_overflow_false :
    ¬ ∀ p : Bytes, p.length < 2 ^ 63 → IndexedSeqWalker.fromPayload p ≠ .panic ∧
      IndexedSeqWalker.fromPayloadUnvalidated p ≠ .panic := by
  intro h
  exact (h [1, 253, 255, 255, 255, 255, 255, 255, 255, 63] (by decide)).1 (by decide)

/-- C38, struct walkers: neither constructor ever panics. -/
theorem C38_struct (p : Bytes) (rev n : Nat) :
    IndexedStructWalker.fromPayload p rev n ≠ .panic ∧
    IndexedStructWalker.fromPayloadUnvalidated p rev n ≠ .panic := by
  refine ⟨structWalker_iff.2.2, ?_⟩
  unfold IndexedStructWalker.fromPayloadUnvalidated
  split <;> simp

/-- C38 for maps, what holds: construction panics only on those two shapes of header — an indexed
map of zero entries under validation, or a declared length within 10 bytes of overflowing the
address space.  Missing: those two. -/
theorem C38_map_partial (p : Bytes) (hlen : p.length < 2 ^ 63) (validate : Bool)
    (h : IndexedMapWalker.fromPayloadInner p validate = .panic) :
    ∃ flags rest len k, p = flags :: rest ∧ flags.toNat % 2 = 1 ∧ sliceVarint rest = .ok (len, k) ∧
      ((len = 0 ∧ validate = true) ∨ 2 ^ 64 ≤ 10 + len * 8) := by
  have bit : ∀ f : UInt8, f &&& 1 ≠ 0 → f.toNat % 2 = 1 := by
    have : ∀ i : Fin 256, (UInt8.ofNat i) &&& 1 ≠ 0 → (UInt8.ofNat i).toNat % 2 = 1 := by
      decide +kernel
    intro f
    have := this ⟨f.toNat, f.toNat_lt⟩
    simpa using this
  have o := mapOutcome p hlen validate
  rw [h] at o
  cases o with
  | overflow flags rest len k hp hf hv hm ho =>
    have := sliceVarint_ok hv
    exact ⟨flags, rest, len, k, hp, bit _ hf, hv, .inr (by omega)⟩
  | empty flags rest k hp hf hv hval hl => exact ⟨flags, rest, 0, k, hp, bit _ hf, hv, .inl ⟨rfl, hval⟩⟩

/-- C38 for sequences, what holds.  Missing: the overflowing length. -/
theorem C38_seq_partial (p : Bytes) (validate : Bool)
    (h : IndexedSeqWalker.fromPayloadInner p validate = .panic) :
    ∃ flags rest len k, p = flags :: rest ∧ sliceVarint rest = .ok (len, k) ∧
      2 ^ 64 ≤ 10 + len * 4 := by
  have o := seqOutcome p validate
  rw [h] at o
  cases o with
  | overflow flags rest len k hp hf hv hm ho =>
    have := sliceVarint_ok hv
    exact ⟨flags, rest, len, k, hp, hv, by omega⟩

/-- The hypotheses of the partial theorems are met. -/
example : IndexedMapWalker.fromPayloadInner [1, 0, 0, 0, 0, 0, 0, 0, 0, 0] true = .panic ∧
    IndexedSeqWalker.fromPayloadInner [1, 253, 255, 255, 255, 255, 255, 255, 255, 63] false = .panic := by
  decide

end Revision
