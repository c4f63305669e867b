import Verif.Proofs.Session
import Verif.Props.Walk

/-! # C125: handles of walkers used in any order

`lost` says where a failed read leaves the reader; the theorems hold whatever it is. -/

namespace Revision

variable {ι : Type} (cfg : Cfg) (E : Env ι)

/-! ### Helpers -/

private theorem seq_took_ne {σ : SeqState} {r : Bytes} {a : Answer β} (h : σ.remaining ≠ 0) (ha : a ≠ .panicked) :
    (σ.took r a).1 ≠ .panicked ∧ (σ.took r a).2.remaining ≤ σ.remaining := by
  unfold SeqState.took
  rw [if_neg h]
  exact ⟨ha, Nat.sub_le _ _⟩

private theorem at_quiet {lost : Bytes → Bytes} {m : Rd β} (hm : m.NoPanic) (s : Bytes) :
    (∃ v r, m.at lost s = (.ok v, r)) ∨ ∃ e r, m.at lost s = (.err e, r) := by
  have := hm s
  unfold Rd.at
  generalize m s = q at *
  rcases q with ⟨v, r⟩ | e | _
  · exact .inl ⟨v, r, rfl⟩
  · exact .inr ⟨e, _, rfl⟩
  · exact absurd rfl this

private theorem opening_quiet {opn : Opening β} (h : opn.Quiet) (s : Bytes) :
    (∃ use r, opn s = (.ok use, r) ∧ use.NoPanic) ∨ ∃ e r, opn s = (.err e, r) := by
  obtain ⟨h1, h2⟩ := h s
  generalize opn s = q at *
  rcases q with ⟨v | e | _, r⟩
  · exact .inl ⟨v, r, rfl, h2 v rfl⟩
  · exact .inr ⟨e, r, rfl⟩
  · exact absurd rfl h1

private theorem seq_call_safe (lost : Bytes → Bytes) (c : SeqCall β) (hc : c.Quiet) (σ : SeqState) :
    (σ.call lost c).1 ≠ .panicked ∧ (σ.call lost c).2.remaining ≤ σ.remaining := by
  cases c with
  | count => exact ⟨nofun, Nat.le_refl _⟩
  | offer => exact ⟨nofun, Nat.le_refl _⟩
  | item m =>
    simp only [SeqState.call]
    split
    · exact ⟨nofun, Nat.le_refl _⟩
    · rename_i h0
      rcases at_quiet (lost := lost) hc σ.reader with ⟨v, r, e⟩ | ⟨x, r, e⟩ <;> rw [e]
      · exact seq_took_ne h0 nofun
      · exact ⟨nofun, Nat.le_refl _⟩
  | walk opn =>
    simp only [SeqState.call]
    split
    · exact ⟨nofun, Nat.le_refl _⟩
    · rename_i h0
      rcases opening_quiet hc σ.reader with ⟨use, r, e, hu⟩ | ⟨x, r, e⟩ <;> rw [e] <;> simp only
      · rcases at_quiet (lost := lost) hu r with ⟨v, r, e⟩ | ⟨x, r, e⟩ <;> rw [e]
        · exact seq_took_ne h0 nofun
        · exact seq_took_ne h0 nofun
      · exact ⟨nofun, Nat.le_refl _⟩

/-- An entry is in use only while entries remain. -/
private def MapState.Live (σ : MapState) : Prop := σ.entry ≠ none → σ.remaining ≠ 0

private theorem map_took_ne {σ : MapState} {r : Bytes} {a : Answer β} (h : σ.remaining ≠ 0) (ha : a ≠ .panicked) :
    (σ.took r a).1 ≠ .panicked ∧ (σ.took r a).2.remaining ≤ σ.remaining ∧ (σ.took r a).2.Live := by
  unfold MapState.took
  rw [if_neg h]
  exact ⟨ha, Nat.sub_le _ _, fun h => absurd rfl h⟩

private theorem map_key_safe (lost : Bytes → Bytes) (m : Rd β) (hm : m.NoPanic) (σ : MapState) (hl : σ.Live) :
    (σ.key lost m).1 ≠ .panicked ∧ (σ.key lost m).2.remaining ≤ σ.remaining ∧ (σ.key lost m).2.Live := by
  obtain ⟨s, n, en⟩ := σ
  rcases en with _ | _ | _
  · exact ⟨nofun, Nat.le_refl _, hl⟩
  · have h0 := hl nofun
    simp only [MapState.key]
    rcases at_quiet (lost := lost) hm s with ⟨v, r, e⟩ | ⟨x, r, e⟩ <;> rw [e]
    · exact ⟨nofun, Nat.le_refl _, fun _ => h0⟩
    · exact ⟨nofun, Nat.le_refl _, fun _ => h0⟩
  · exact ⟨nofun, Nat.le_refl _, hl⟩

private theorem map_value_safe (lost : Bytes → Bytes) (m : Rd β) (hm : m.NoPanic) (σ : MapState) (hl : σ.Live) :
    (σ.value lost m).1 ≠ .panicked ∧ (σ.value lost m).2.remaining ≤ σ.remaining ∧ (σ.value lost m).2.Live := by
  obtain ⟨s, n, en⟩ := σ
  rcases en with _ | _ | _
  · exact ⟨nofun, Nat.le_refl _, hl⟩
  · exact ⟨nofun, Nat.le_refl _, fun h => absurd rfl h⟩
  · have h0 := hl nofun
    simp only [MapState.value]
    rcases at_quiet (lost := lost) hm s with ⟨v, r, e⟩ | ⟨x, r, e⟩ <;> rw [e]
    · exact map_took_ne h0 nofun
    · exact ⟨nofun, Nat.le_refl _, fun h => absurd rfl h⟩

private theorem map_call_safe (lost : Bytes → Bytes) (c : MapCall β) (hc : c.Quiet) (σ : MapState) (hl : σ.Live) :
    (σ.call lost c).1 ≠ .panicked ∧ (σ.call lost c).2.remaining ≤ σ.remaining ∧ (σ.call lost c).2.Live := by
  cases c with
  | count => exact ⟨nofun, Nat.le_refl _, fun h => absurd rfl h⟩
  | drop => exact ⟨nofun, Nat.le_refl _, fun h => absurd rfl h⟩
  | next =>
    simp only [MapState.call]
    split
    · exact ⟨nofun, Nat.le_refl _, fun h => absurd rfl h⟩
    · rename_i h0
      exact ⟨nofun, Nat.le_refl _, fun _ => h0⟩
  | key m => exact map_key_safe lost m hc σ hl
  | value m => exact map_value_safe lost m hc σ hl
  | pair km vm =>
    have h1 := map_key_safe lost km hc.1 σ hl
    simp only [MapState.call, MapState.pair]
    generalize σ.key lost km = q at *
    obtain ⟨a, σ1⟩ := q
    have other : ∀ a : Answer β, a ≠ .panicked → ((a, { σ1 with entry := none }) : Answer β × MapState).1 ≠ .panicked ∧
        ((a, { σ1 with entry := none }) : Answer β × MapState).2.remaining ≤ σ.remaining ∧
        ((a, { σ1 with entry := none }) : Answer β × MapState).2.Live :=
      fun a ha => ⟨ha, h1.2.1, fun h => absurd rfl h⟩
    cases a
    case got x =>
      simp only
      have h2 := map_value_safe lost vm hc.2 σ1 h1.2.2
      generalize σ1.value lost vm = q at *
      obtain ⟨b, σ2⟩ := q
      have hle := Nat.le_trans h2.2.1 h1.2.1
      cases b <;> exact ⟨by first | exact h2.1 | nofun, hle, h2.2.2⟩
    all_goals exact other _ (by first | exact h1.1 | nofun)
  | walk opn =>
    obtain ⟨s, n, en⟩ := σ
    rcases en with _ | _ | _
    · exact ⟨nofun, Nat.le_refl _, hl⟩
    · exact ⟨nofun, Nat.le_refl _, fun h => absurd rfl h⟩
    · have h0 := hl nofun
      simp only [MapState.call, MapState.walk]
      rcases opening_quiet hc s with ⟨use, r, e, hu⟩ | ⟨x, r, e⟩ <;> rw [e] <;> simp only
      · rcases at_quiet (lost := lost) hu r with ⟨v, r, e⟩ | ⟨x, r, e⟩ <;> rw [e]
        · exact map_took_ne h0 nofun
        · exact map_took_ne h0 nofun
      · exact ⟨nofun, Nat.le_refl _, fun h => absurd rfl h⟩

private theorem map_run_append (lost : Bytes → Bytes) (c : MapCall β) : ∀ (cs : List (MapCall β)) (σ : MapState),
    σ.run lost (cs ++ [c]) =
      ((σ.run lost cs).1 ++ [((σ.run lost cs).2.call lost c).1], ((σ.run lost cs).2.call lost c).2)
  | [], _ => rfl
  | d :: cs, σ => by
    simp only [List.cons_append, MapState.run, map_run_append lost c cs]

private theorem map_run_length (lost : Bytes → Bytes) : ∀ (cs : List (MapCall β)) (σ : MapState),
    (σ.run lost cs).1.length = cs.length
  | [], _ => rfl
  | d :: cs, σ => by
    simp only [MapState.run, List.length_cons, map_run_length lost cs]

private theorem map_took_entry (σ : MapState) (r : Bytes) (a : Answer β) : (σ.took r a).2.entry = none := by
  unfold MapState.took
  split <;> rfl

private theorem map_value_entry (lost : Bytes → Bytes) (m : Rd β) (σ : MapState) :
    (σ.value lost m).2.entry = none := by
  obtain ⟨s, n, en⟩ := σ
  rcases en with _ | _ | _
  · rfl
  · rfl
  · simp only [MapState.value]
    generalize m.at lost s = q
    rcases q with ⟨v | e | _, r⟩
    · exact map_took_entry ..
    · rfl
    · rfl

private theorem map_call_half (lost : Bytes → Bytes) (c : MapCall β) (σ : MapState) :
    (σ.call lost c).2.entry = halfNext σ.entry (c, (σ.call lost c).1) := by
  cases c with
  | count => rfl
  | drop => rfl
  | next =>
    simp only [MapState.call]
    split <;> rfl
  | key m =>
    obtain ⟨s, n, en⟩ := σ
    rcases en with _ | _ | _
    · rfl
    · simp only [MapState.call, MapState.key]
      generalize m.at lost s = q
      rcases q with ⟨v | e | _, r⟩ <;> rfl
    · rfl
  | value m => exact map_value_entry lost m σ
  | pair km vm =>
    show (σ.pair lost km vm).2.entry = none
    unfold MapState.pair
    generalize σ.key lost km = q
    obtain ⟨a, σ1⟩ := q
    cases a
    case got x =>
      simp only
      have := map_value_entry lost vm σ1
      generalize σ1.value lost vm = q at *
      obtain ⟨b, σ2⟩ := q
      cases b <;> exact this
    all_goals rfl
  | walk opn =>
    obtain ⟨s, n, en⟩ := σ
    rcases en with _ | _ | _
    · rfl
    · rfl
    · show (MapState.walk lost opn _).2.entry = none
      simp only [MapState.walk]
      generalize opn s = q
      rcases q with ⟨use | e | _, r⟩
      · simp only
        generalize use.at lost r = q
        rcases q with ⟨v | e | _, r⟩ <;> exact map_took_entry ..
      · rfl
      · rfl

private theorem map_run_half (lost : Bytes → Bytes) : ∀ (cs : List (MapCall β)) (σ : MapState),
    (σ.run lost cs).2.entry = (cs.zip (σ.run lost cs).1).foldl halfNext σ.entry
  | [], _ => rfl
  | c :: cs, σ => by
    simp only [MapState.run, List.zip_cons_cons, List.foldl_cons, map_run_half lost cs, map_call_half]

/-- An entry in use has not been counted off. -/
private theorem map_call_live (lost : Bytes → Bytes) (c : MapCall β) (σ : MapState)
    (h : σ.entry ≠ none → σ.remaining ≠ 0) :
    (σ.call lost c).2.entry ≠ none → (σ.call lost c).2.remaining ≠ 0 := by
  intro h'
  cases c with
  | count => exact absurd rfl h'
  | drop => exact absurd rfl h'
  | next =>
    simp only [MapState.call] at h' ⊢
    split at h'
    · exact absurd rfl h'
    · simp_all
  | key m =>
    obtain ⟨s, n, en⟩ := σ
    rcases en with _ | _ | _
    · exact absurd rfl h'
    · simp only [MapState.call, MapState.key]
      generalize m.at lost s = q
      rcases q with ⟨v | e | _, r⟩ <;> exact h nofun
    · exact h nofun
  | value m => exact absurd (map_value_entry lost m σ) h'
  | pair km vm =>
    rw [map_call_half] at h'
    exact absurd (by cases σ.entry <;> rfl) h'
  | walk opn =>
    rw [map_call_half] at h'
    exact absurd (by cases σ.entry <;> rfl) h'

private theorem map_run_live (lost : Bytes → Bytes) : ∀ (cs : List (MapCall β)) (σ : MapState),
    (σ.entry ≠ none → σ.remaining ≠ 0) → (σ.run lost cs).2.entry ≠ none → (σ.run lost cs).2.remaining ≠ 0
  | [], _, h => h
  | c :: cs, σ, h => map_run_live lost cs _ (map_call_live lost c σ h)

private theorem map_value_exact (lost : Bytes → Bytes) (m : Rd β) (s : Bytes) (n : Nat) (h0 : n ≠ 0) :
    (MapState.value lost m ⟨s, n, some .beforeValue⟩).1.Of m s ∧
      (MapState.value lost m ⟨s, n, some .beforeValue⟩).2.reader = m.leaves lost s ∧
      (MapState.value lost m ⟨s, n, some .beforeValue⟩).2.remaining = m.leftOf n s := by
  simp only [MapState.value, Answer.Of, Rd.at, Rd.leaves, Rd.leftOf, MapState.took, if_neg h0]
  generalize m s = q
  rcases q with ⟨v, r⟩ | e | _ <;> exact ⟨rfl, rfl, rfl⟩

private theorem seq_run_append (lost : Bytes → Bytes) (c : SeqCall β) : ∀ (cs : List (SeqCall β)) (σ : SeqState),
    σ.run lost (cs ++ [c]) =
      ((σ.run lost cs).1 ++ [((σ.run lost cs).2.call lost c).1], ((σ.run lost cs).2.call lost c).2)
  | [], _ => rfl
  | d :: cs, σ => by
    simp only [List.cons_append, SeqState.run, seq_run_append lost c cs]

private theorem seq_run_length (lost : Bytes → Bytes) : ∀ (cs : List (SeqCall β)) (σ : SeqState),
    (σ.run lost cs).1.length = cs.length
  | [], _ => rfl
  | d :: cs, σ => by
    simp only [SeqState.run, List.length_cons, seq_run_length lost cs]

/-! ### C125 -/

/-- C125 for sequences: any session with the walker of a sequence, in which items are offered and let go,
decoded, skipped, inspected or walked to the end, answers as the list of items says; the count is the
number of items left, and what is left is on the reader, followed by what followed the sequence. -/
theorem C125_seq_partial (t c : Ty ι)
    (hc : (c = .vec t ∧ vecUsesBulkEncoding cfg t = false) ∨ c = .hashSet t ∨ c = .btreeSet t ∨ c = .binaryHeap t ∨
      c = .vector t)
    (s r : Bytes) (m : c.denote E.X) (h : (c.codec cfg E).dec s = .ok (m, r)) :
    ∃ l r1, (vecC cfg (E.cap t) (t.codec cfg E)).dec s = .ok (l, r) ∧ c.walk cfg s = .ok (.seq ⟨l.length⟩, r1) ∧
      ∀ (lost : Bytes → Bytes) (session : List (SeqUse (t.codec cfg E) β)),
        ∃ r2, SeqState.run lost (session.map SeqUse.toCall) ⟨r1, l.length⟩ =
            ((SeqUse.run session l).1, ⟨r2, (SeqUse.run session l).2.length⟩) ∧
          Rd.readN (SeqUse.run session l).2.length (t.codec cfg E).dec r2 = .ok ((SeqUse.run session l).2, r) := by
  have key : ∀ l, (vecC cfg (E.cap t) (t.codec cfg E)).dec s = .ok (l, r) →
      c.walk cfg = (do return .seq (← SeqWalker.new cfg)) →
      ∃ l r1, (vecC cfg (E.cap t) (t.codec cfg E)).dec s = .ok (l, r) ∧ c.walk cfg s = .ok (.seq ⟨l.length⟩, r1) ∧
      ∀ (lost : Bytes → Bytes) (session : List (SeqUse (t.codec cfg E) β)),
        ∃ r2, SeqState.run lost (session.map SeqUse.toCall) ⟨r1, l.length⟩ =
            ((SeqUse.run session l).1, ⟨r2, (SeqUse.run session l).2.length⟩) ∧
          Rd.readN (SeqUse.run session l).2.length (t.codec cfg E).dec r2 = .ok ((SeqUse.run session l).2, r) := by
    intro l hl hw
    obtain ⟨r1, h1, h2⟩ := vecC_dec_ok hl
    refine ⟨l, r1, hl, ?_, fun lost session => SeqUse.run_state lost session l r1 r h2⟩
    rw [hw]
    simp only [SeqWalker.new, Rd.bind_assoc]
    rw [Rd.bind_of_ok h1]; rfl
  rcases hc with ⟨rfl, hb⟩ | rfl | rfl | rfl | rfl
  · simp only [Ty.codec] at h
    rw [vecOf_elementwise hb] at h
    exact key m h (by simp [Ty.walk, hb])
  all_goals
    obtain ⟨l, h1, _⟩ := coll_wire cfg h
    exact key l h1 rfl

/-- C125 for maps: any session with the walker of a map in which no entry is lost between its key and its
value answers as the list of entries says, calls in the wrong order included: those answer
`Error::Deserialize` and change nothing.  What is left is on the reader, followed by what followed the map.
The full statement, that failed calls never put the walker out of step, fails: `C125_refused_walk_false`,
`C125_pair_false`, `C125_failed_walk_false`; nor does dropping a nested walker move on to the next item:
`C125_dropped_walk_false`. -/
theorem C125_map_partial (hE : E.Lawful) (k v c : Ty ι) (hc : c = .hashMap k v ∨ c = .btreeMap k v)
    (s r : Bytes) (m : c.denote E.X) (h : (c.codec cfg E).dec s = .ok (m, r)) :
    ∃ l r1, ((Ty.vec (.pair k v)).codec cfg E).dec s = .ok (l, r) ∧ c.walk cfg s = .ok (.map ⟨l.length⟩, r1) ∧
      ∀ (lost : Bytes → Bytes) (session : List (MapUse (k.codec cfg E) (v.codec cfg E) β)) (answers : List (Answer β))
        (left : MapView (k.denote E.X) (v.denote E.X)),
        MapUse.run session ⟨l, none⟩ = some (answers, left) →
        ∃ r2, MapState.run lost (session.map MapUse.toCall) ⟨r1, l.length, none⟩ =
            (answers, ⟨r2, left.rest.length, left.entry⟩) ∧
          (left.entry ≠ some .beforeValue →
            MapWalker.skipRemaining (k.codec cfg E).skip (v.codec cfg E).skip ⟨left.rest.length⟩ r2 = .ok ((), r)) := by
  have key : ∀ l, (vecC cfg (E.cap (.pair k v)) (pairC (k.codec cfg E) (v.codec cfg E))).dec s = .ok (l, r) →
      c.walk cfg = (do return .map (← MapWalker.new cfg)) →
      ∃ l r1, ((Ty.vec (.pair k v)).codec cfg E).dec s = .ok (l, r) ∧ c.walk cfg s = .ok (.map ⟨l.length⟩, r1) ∧
      ∀ (lost : Bytes → Bytes) (session : List (MapUse (k.codec cfg E) (v.codec cfg E) β)) (answers : List (Answer β))
        (left : MapView (k.denote E.X) (v.denote E.X)),
        MapUse.run session ⟨l, none⟩ = some (answers, left) →
        ∃ r2, MapState.run lost (session.map MapUse.toCall) ⟨r1, l.length, none⟩ =
            (answers, ⟨r2, left.rest.length, left.entry⟩) ∧
          (left.entry ≠ some .beforeValue →
            MapWalker.skipRemaining (k.codec cfg E).skip (v.codec cfg E).skip ⟨left.rest.length⟩ r2 = .ok ((), r)) := by
    intro l hl hw
    obtain ⟨r1, h1, h2⟩ := vecC_dec_ok hl
    refine ⟨l, r1, hl, ?_, fun lost session answers left hs => ?_⟩
    · rw [hw]
      simp only [MapWalker.new, Rd.bind_assoc]
      rw [Rd.bind_of_ok h1]; rfl
    · obtain ⟨⟨r2, n, en⟩, h3, hn, he, h4⟩ := MapUse.run_state lost session ⟨l, none⟩ left ⟨r1, l.length, none⟩ r answers
        ⟨rfl, rfl, h2⟩ hs
      simp only at hn he
      subst hn he
      refine ⟨r2, h3, fun hne => ?_⟩
      have hag : (pairC (k.codec cfg E) (v.codec cfg E)).dec.Agree
          (do (k.codec cfg E).skip; (v.codec cfg E).skip) :=
        Rd.Agree.bind (k.codec_lawful cfg hE).skip_agree fun _ _ =>
          Rd.Agree.bind_pure_left (v.codec_lawful cfg hE).skip_agree
      obtain ⟨rest, en⟩ := left
      have h5 : Rd.readN rest.length (pairC (k.codec cfg E) (v.codec cfg E)).dec r2 = .ok (rest, r) := by
        rcases en with _ | _ | _
        · exact h4
        · cases rest with
          | nil => exact h4.elim
          | cons e l => exact h4
        · exact absurd rfl hne
      obtain ⟨_, hx⟩ := Rd.Agree.readN hag _ _ _ _ h5
      exact hx
  rcases hc with rfl | rfl
  all_goals
    obtain ⟨l, h1, _⟩ := coll_wire cfg h
    exact key l h1 rfl

/-- C125: on any bytes, in any session, careless ones included, no call panics (the counter does not
underflow) and the count never grows. -/
theorem C125_map_safe (lost : Bytes → Bytes) (s r1 : Bytes) (w : MapWalker) (_ : MapWalker.new cfg s = .ok (w, r1))
    (session : List (MapCall β)) (hq : ∀ c ∈ session, c.Quiet) :
    (∀ a ∈ (MapState.run lost session ⟨r1, w.remaining, none⟩).1, a ≠ .panicked) ∧
      (MapState.run lost session ⟨r1, w.remaining, none⟩).2.remaining ≤ w.remaining := by
  have main : ∀ (cs : List (MapCall β)), (∀ c ∈ cs, c.Quiet) → ∀ σ : MapState, σ.Live →
      (∀ a ∈ (σ.run lost cs).1, a ≠ .panicked) ∧ (σ.run lost cs).2.remaining ≤ σ.remaining := by
    intro cs
    induction cs with
    | nil => exact fun _ σ _ => ⟨nofun, Nat.le_refl _⟩
    | cons c cs ih =>
      intro hq σ hl
      obtain ⟨h1, h2, h3⟩ := map_call_safe lost c (hq c (List.mem_cons_self ..)) σ hl
      obtain ⟨h4, h5⟩ := ih (fun c hc => hq c (List.mem_cons_of_mem _ hc)) _ h3
      refine ⟨fun a ha => ?_, Nat.le_trans h5 h2⟩
      rcases List.mem_cons.1 ha with rfl | ha
      · exact h1
      · exact h4 a ha
  exact main session hq _ fun h => absurd rfl h

/-- C125: the same for sequences. -/
theorem C125_seq_safe (lost : Bytes → Bytes) (s r1 : Bytes) (w : SeqWalker) (_ : SeqWalker.new cfg s = .ok (w, r1))
    (session : List (SeqCall β)) (hq : ∀ c ∈ session, c.Quiet) :
    (∀ a ∈ (SeqState.run lost session ⟨r1, w.remaining⟩).1, a ≠ .panicked) ∧
      (SeqState.run lost session ⟨r1, w.remaining⟩).2.remaining ≤ w.remaining := by
  have main : ∀ (cs : List (SeqCall β)), (∀ c ∈ cs, c.Quiet) → ∀ σ : SeqState,
      (∀ a ∈ (σ.run lost cs).1, a ≠ .panicked) ∧ (σ.run lost cs).2.remaining ≤ σ.remaining := by
    intro cs
    induction cs with
    | nil => exact fun _ σ => ⟨nofun, Nat.le_refl _⟩
    | cons c cs ih =>
      intro hq σ
      obtain ⟨h1, h2⟩ := seq_call_safe lost c (hq c (List.mem_cons_self ..)) σ
      obtain ⟨h4, h5⟩ := ih (fun c hc => hq c (List.mem_cons_of_mem _ hc)) (σ.call lost c).2
      refine ⟨fun a ha => ?_, Nat.le_trans h5 h2⟩
      rcases List.mem_cons.1 ha with rfl | ha
      · exact h1
      · exact h4 a ha
  exact main session hq _

/-- C125: the order of the calls, on any bytes and whatever failed before.  Told from the answers so far, a call
on an entry that is not in use cannot be made; the value of an entry before its key is refused, as is the key of
an entry before its value, and neither touches the reader; the half that is next is read where the reader stands,
and a key that could not be read can be tried again, from where that read stopped.  An entry is counted off only once
its value has been read or the walker of its value opened. -/
theorem C125_order (lost : Bytes → Bytes) (s r1 : Bytes) (w : MapWalker) (_ : MapWalker.new cfg s = .ok (w, r1))
    (before : List (MapCall β)) (c : MapCall β) :
    ∃ as σ a σ', MapState.run lost before ⟨r1, w.remaining, none⟩ = (as, σ) ∧ as.length = before.length ∧
      MapState.run lost (before ++ [c]) ⟨r1, w.remaining, none⟩ = (as ++ [a], σ') ∧
      (halfAfter (before.zip as) ≠ none → σ.remaining ≠ 0) ∧
      match halfAfter (before.zip as), c with
      | none, .key _ | none, .value _ | none, .pair _ _ | none, .walk _ =>
        a = .uncallable ∧ σ'.reader = σ.reader ∧ σ'.remaining = σ.remaining
      | some .beforeKey, .value _ | some .beforeKey, .walk _ | some .beforeValue, .key _ | some .beforeValue, .pair _ _ =>
        a = .failed .deserialize ∧ σ'.reader = σ.reader ∧ σ'.remaining = σ.remaining
      | some .beforeKey, .key m =>
        a.Of m σ.reader ∧ σ'.reader = m.leaves lost σ.reader ∧ σ'.remaining = σ.remaining
      | some .beforeValue, .value m =>
        a.Of m σ.reader ∧ σ'.reader = m.leaves lost σ.reader ∧ σ'.remaining = m.leftOf σ.remaining σ.reader
      | some .beforeKey, .pair km vm => PairRead km vm lost σ.remaining σ.reader a σ'.reader σ'.remaining
      | some .beforeValue, .walk opn => opn.Walked lost σ.remaining σ.reader a σ'.reader σ'.remaining
      | _, .next => (a = .offered true ∧ σ.remaining ≠ 0 ∨ a = .offered false ∧ σ.remaining = 0) ∧
        σ'.reader = σ.reader ∧ σ'.remaining = σ.remaining
      | _, .count => a = .count σ.remaining ∧ σ'.reader = σ.reader ∧ σ'.remaining = σ.remaining
      | _, .drop => a = .dropped ∧ σ'.reader = σ.reader ∧ σ'.remaining = σ.remaining := by
  refine ⟨_, _, _, _, rfl, map_run_length .., map_run_append .., ?_⟩
  have h := map_run_half lost before ⟨r1, w.remaining, none⟩
  have h' : halfAfter (before.zip (MapState.run lost before ⟨r1, w.remaining, none⟩).1) = _ := h.symm
  rw [h']
  have h0 := map_run_live lost before ⟨r1, w.remaining, none⟩ fun h => absurd rfl h
  generalize (MapState.run lost before ⟨r1, w.remaining, none⟩).2 = σ at h0
  refine ⟨h0, ?_⟩
  obtain ⟨s, n, en⟩ := σ
  rcases en with _ | _ | _ <;> cases c <;>
    first
    | exact ⟨rfl, rfl, rfl⟩
    | skip
  case none.next | some.beforeKey.next | some.beforeValue.next =>
    simp only [MapState.call]
    split <;> simp_all
  case some.beforeKey.key m =>
    simp only [MapState.call, MapState.key, Answer.Of, Rd.at, Rd.leaves]
    generalize m s = q
    rcases q with ⟨v, r⟩ | e | _ <;> exact ⟨rfl, rfl, rfl⟩
  case some.beforeValue.value m => exact map_value_exact lost m s n (h0 nofun)
  case some.beforeKey.pair km vm =>
    simp only [MapState.call, MapState.pair, MapState.key, Answer.Of, Rd.at, PairRead]
    generalize km s = q
    rcases q with ⟨k, r⟩ | e | _
    · have := map_value_exact lost vm r n (h0 nofun)
      simp only [MapState.value, Answer.Of, Rd.at, Rd.leaves, Rd.leftOf, MapState.took, if_neg (h0 nofun)] at this ⊢
      generalize vm r = q at *
      have h0 := h0 nofun
      simp only at h0
      rcases q with ⟨v, r⟩ | e | _
      · exact ⟨rfl, rfl, by simp only; omega⟩
      · exact ⟨rfl, rfl, rfl⟩
      · exact ⟨rfl, rfl, rfl⟩
    · exact ⟨rfl, rfl, rfl⟩
    · exact ⟨rfl, rfl, rfl⟩
  case some.beforeValue.walk opn =>
    have h0 := h0 nofun
    simp only [MapState.call, MapState.walk, Opening.Walked]
    simp only at h0
    generalize opn s = q
    rcases q with ⟨use | e | _, r⟩
    · simp only [Answer.Of, Rd.at, Rd.leaves, MapState.took, if_neg h0]
      generalize use r = q
      rcases q with ⟨v, r⟩ | e | _ <;> exact ⟨rfl, rfl, by simp only; omega⟩
    · exact ⟨rfl, rfl, rfl⟩
    · exact ⟨rfl, rfl, rfl⟩

/-- C125: what each call on a sequence does, on any bytes and whatever failed before.  An item that could not be read
is not counted off, and the next call reads from where that read stopped; an item whose walker opened is counted off
whatever becomes of the walk. -/
theorem C125_seq_order (lost : Bytes → Bytes) (s r1 : Bytes) (w : SeqWalker) (_ : SeqWalker.new cfg s = .ok (w, r1))
    (before : List (SeqCall β)) (c : SeqCall β) :
    ∃ as σ a σ', SeqState.run lost before ⟨r1, w.remaining⟩ = (as, σ) ∧ as.length = before.length ∧
      SeqState.run lost (before ++ [c]) ⟨r1, w.remaining⟩ = (as ++ [a], σ') ∧
      match σ.remaining, c with
      | n, .count => a = .count n ∧ σ' = σ
      | n, .offer => a = .offered (n != 0) ∧ σ' = σ
      | 0, .item _ | 0, .walk _ => a = .offered false ∧ σ' = σ
      | n + 1, .item m =>
        a.Of m σ.reader ∧ σ'.reader = m.leaves lost σ.reader ∧ σ'.remaining = m.leftOf (n + 1) σ.reader
      | n + 1, .walk opn => opn.Walked lost (n + 1) σ.reader a σ'.reader σ'.remaining := by
  refine ⟨_, _, _, _, rfl, seq_run_length .., seq_run_append .., ?_⟩
  generalize (SeqState.run lost before ⟨r1, w.remaining⟩).2 = σ
  obtain ⟨s, n⟩ := σ
  rcases n with _ | n <;> cases c <;>
    first
    | exact ⟨rfl, rfl⟩
    | skip
  case succ.item m =>
    simp only [SeqState.call, Answer.Of, Rd.at, Rd.leaves, Rd.leftOf, if_neg (Nat.succ_ne_zero n), SeqState.took]
    generalize m s = q
    rcases q with ⟨v, r⟩ | e | _ <;> exact ⟨rfl, rfl, rfl⟩
  case succ.walk opn =>
    simp only [SeqState.call, Opening.Walked, if_neg (Nat.succ_ne_zero n), SeqState.took]
    generalize opn s = q
    rcases q with ⟨use | e | _, r⟩
    · simp only [Answer.Of, Rd.at, Rd.leaves]
      generalize use r = q
      rcases q with ⟨v, r⟩ | e | _ <;> exact ⟨rfl, rfl, rfl⟩
    · exact ⟨rfl, rfl, rfl⟩
    · exact ⟨rfl, rfl, rfl⟩

/-- C125: the walker of an `Option` or a `Result` does not open on any other tag than 0 or 1; the tag has been
read then. -/
theorem C125_bad_tag (lost : Bytes → Bytes) (t e : Ty ι) (use : Walker → Rd β) (s r : Bytes) :
    (∀ tag : BitVec 8, decInt cfg .u8 s = .ok (tag, r) → tag ≠ 0 → tag ≠ 1 →
      (Ty.option t).opening cfg lost use s = (.err .deserialize, r)) ∧
    ∀ tag, readU32 cfg s = .ok (tag, r) → tag ≠ 0 → tag ≠ 1 →
      (Ty.result t e).opening cfg lost use s = (.err .deserialize, r) := by
  refine ⟨fun tag h h0 h1 => ?_, fun tag h h0 h1 => ?_⟩
  · simp only [Ty.opening, Ty.walkAt, Rd.at, h, if_neg (not_or.2 ⟨h0, h1⟩)]
  · simp only [Ty.opening, Ty.walkAt, Rd.at, h, if_neg (not_or.2 ⟨h0, h1⟩)]

/-- Boxes around a type. -/
def Ty.boxed (t : Ty ι) : Nat → Ty ι
  | 0 => t
  | n + 1 => .wrap (t.boxed n)

/-- C125: a nested walk into a boxed type, at any depth of boxes, does as the walk into the type does, also when
it fails: the error is the same and the reader is left in the same place. -/
theorem C125_boxed (lost : Bytes → Bytes) (t : Ty ι) (n : Nat) (use : Walker → Rd β) (s : Bytes) :
    (t.boxed n).opening cfg lost use s = t.opening cfg lost use s := by
  induction n with
  | zero => rfl
  | succ n ih =>
    rw [← ih]
    rfl

/-- C125: an item of a sequence whose type's walker is refused outright, a bulk-encoded vector, is
still there after the refusal. -/
theorem C125_refused_item (lost : Bytes → Bytes) (t : Ty ι) (hb : vecUsesBulkEncoding cfg t = true)
    (use : Walker → Rd β) (s : Bytes) (n : Nat) :
    SeqState.call lost (.walk ((Ty.vec t).opening cfg lost use)) ⟨s, n + 1⟩ = (.failed .deserialize, ⟨s, n + 1⟩) := by
  simp only [SeqState.call, if_neg (Nat.succ_ne_zero n), Ty.opening, Ty.walkAt, hb, if_true]

/-- C125 fails: the same refusal for the value of a map entry puts the walker out of step, on valid data.
The entry is gone, the key has been read, and the count is as before: in the map `{1: [2, 3], 4: []}` of
`u8` to `Vec<u8>` the next entry offered has the key 2. -/
theorem C125_refused_walk_false : ∃ (s r1 : Bytes) (m : (Ty.hashMap (.int .u8) (.vec (.int .u8)) : Ty Empty).denote demoEnv.X),
    ((Ty.hashMap (.int .u8) (.vec (.int .u8)) : Ty Empty).codec .default demoEnv).dec s = .ok (m, []) ∧
    m = [(1, [2, 3]), (4, [])] ∧
    (Ty.hashMap (.int .u8) (.vec (.int .u8)) : Ty Empty).walk .default s = .ok (.map ⟨2⟩, r1) ∧
    ∀ lost, (MapState.run lost
      [.next, .key (decInt .default .u8),
        .walk ((Ty.vec (.int .u8) : Ty Empty).opening .default lost fun _ => decInt .default .u8),
        .count, .next, .key (decInt .default .u8)] ⟨r1, 2, none⟩).1 =
      [.offered true, .got 1, .failed .deserialize, .count 2, .offered true, .got 2] :=
  ⟨[2, 1, 2, 2, 3, 4, 0], [1, 2, 2, 3, 4, 0], [(1, [2, 3]), (4, [])], by rfl, rfl, by rfl, fun _ => by rfl⟩

/-- C125 fails: so does asking for the pair once the key has been read.  In `{1: 7, 4: 0}` the next entry
offered has the key 7. -/
theorem C125_pair_false : ∃ (s r1 : Bytes) (m : (Ty.hashMap (.int .u8) (.int .u8) : Ty Empty).denote demoEnv.X),
    ((Ty.hashMap (.int .u8) (.int .u8) : Ty Empty).codec .default demoEnv).dec s = .ok (m, []) ∧
    m = [(1, 7), (4, 0)] ∧
    (Ty.hashMap (.int .u8) (.int .u8) : Ty Empty).walk .default s = .ok (.map ⟨2⟩, r1) ∧
    ∀ lost, (MapState.run lost
      [.next, .key (decInt .default .u8), .pair (decInt .default .u8) (decInt .default .u8),
        .count, .next, .key (decInt .default .u8)] ⟨r1, 2, none⟩).1 =
      [.offered true, .got 1, .failed .deserialize, .count 2, .offered true, .got 7] :=
  ⟨[2, 1, 7, 4, 0], [1, 7, 4, 0], [(1, 7), (4, 0)], by rfl, rfl, by rfl, fun _ => by rfl⟩

/-- C125 fails: a nested walk that fails on its tag has read the tag.  In a sequence of three options whose
first has the tag 9, three items still remain after the failure, but the next one is the second. -/
theorem C125_failed_walk_false : ∃ (s r1 : Bytes),
    (Ty.vec (.option (.int .u8)) : Ty Empty).walk .default s = .ok (.seq ⟨3⟩, r1) ∧
    ∀ lost, (SeqState.run lost
      [.walk ((Ty.option (.int .u8) : Ty Empty).opening .default lost fun _ => pure none),
        .count, .item ((Ty.option (.int .u8) : Ty Empty).codec .default demoEnv).dec,
        .item ((Ty.option (.int .u8) : Ty Empty).codec .default demoEnv).dec,
        .count] ⟨r1, 3⟩) =
      ([.failed .deserialize, .count 3, .got (some 5), .got none, .count 1], ⟨[], 1⟩) :=
  ⟨[3, 9, 1, 5, 0], [9, 1, 5, 0], by rfl, fun _ => by rfl⟩

/-- C125 fails: after a nested walker has been dropped the next call of `next_item` does not yield the
following item, unless the nested walker was used to its end.  In `[Some(1), None]` dropping the walker of
the first item leaves its payload, which is taken for `Some(0)`. -/
theorem C125_dropped_walk_false : ∃ (s r1 : Bytes) (m : (Ty.vec (.option (.int .u8)) : Ty Empty).denote demoEnv.X),
    ((Ty.vec (.option (.int .u8)) : Ty Empty).codec .default demoEnv).dec s = .ok (m, []) ∧
    m = [some 1, none] ∧
    (Ty.vec (.option (.int .u8)) : Ty Empty).walk .default s = .ok (.seq ⟨2⟩, r1) ∧
    ∀ lost, (SeqState.run lost
      [.walk ((Ty.option (.int .u8) : Ty Empty).opening .default lost fun _ => pure none),
        .item ((Ty.option (.int .u8) : Ty Empty).codec .default demoEnv).dec] ⟨r1, 2⟩).1 =
      [.got none, .got (some 0)] :=
  ⟨[2, 1, 1, 0], [1, 1, 0], [some 1, none], by rfl, rfl, by rfl, fun _ => by rfl⟩

/-! ### Non-vacuity -/

/-- Out of order, repeated, dropped before the key, and in order. -/
example : ∃ r1, (Ty.hashMap (.int .u8) (.int .u8) : Ty Empty).walk .default [2, 1, 7, 4, 0, 9] = .ok (.map ⟨2⟩, r1) ∧
    ∀ lost, ∃ r2, MapState.run lost
      [.next, .value (decInt .default .u8), .next, .drop, .count, .next, .key (decInt .default .u8),
        .key (decInt .default .u8), .value (decInt .default .u8), .next, .pair (decInt .default .u8) (decInt .default .u8),
        .next] ⟨r1, 2, none⟩ =
      ([.offered true, .failed .deserialize, .offered true, .dropped, .count 2, .offered true, .got 1,
        .failed .deserialize, .got 7, .offered true, .both 4 0, .offered false], ⟨r2, 0, none⟩) ∧ r2 = [9] := by
  obtain ⟨l, r1, h1, h2, h3⟩ := C125_map_partial (β := BitVec 8) .default demoEnv demoEnv_lawful (.int .u8) (.int .u8)
    (.hashMap (.int .u8) (.int .u8)) (.inl rfl) [2, 1, 7, 4, 0, 9] [9] [(1, 7), (4, 0)] rfl
  have hl : l = [(1, 7), (4, 0)] := by
    have : ((Ty.vec (.pair (.int .u8) (.int .u8)) : Ty Empty).codec .default demoEnv).dec [2, 1, 7, 4, 0, 9] =
      .ok ([(1, 7), (4, 0)], [9]) := rfl
    rw [this] at h1
    cases h1
    rfl
  subst hl
  refine ⟨r1, h2, fun lost => ?_⟩
  let k := Observer.decode ((Ty.int .u8 : Ty Empty).codec .default demoEnv)
  obtain ⟨r2, h4, h5⟩ := h3 lost [.next, .value k, .next, .drop, .count, .next, .key k, .key k, .value k, .next, .pair k k,
    .next] _ ⟨[], none⟩ rfl
  have h5 := h5 nofun
  cases h5
  exact ⟨_, h4, rfl⟩

/-- A full walk: into an option, to its end. -/
def demoFullWalk (lost : Bytes → Bytes) :
    FullWalk ((Ty.option .bool : Ty Empty).codec .default demoEnv) (Option Bool) :=
  FullWalk.ofWalk lost (.option .bool) (fun w => match w with
      | .option o => o.decode ((Ty.bool : Ty Empty).codec .default demoEnv)
      | _ => Rd.fail .deserialize) id (by
    intro s a r h
    have h := (Observer.intoOption .default demoEnv (.bool : Ty Empty)).follows s a r h
    simp only [Ty.walk, Rd.bind_assoc, Rd.pure_bind]
    exact h)

/-- A session with a sequence: an item is offered and let go, walked into and used to the end, and the next
taken. -/
example (lost : Bytes → Bytes) : ∃ r1 r2, (Ty.vec (.option .bool) : Ty Empty).walk .default [3, 1, 1, 0, 0, 5] =
      .ok (.seq ⟨3⟩, r1) ∧
    SeqState.run lost [.offer, .walk (demoFullWalk lost).opn,
      .item ((Ty.option .bool : Ty Empty).codec .default demoEnv).dec, .count] ⟨r1, 3⟩ =
      ([.offered true, .got (some true), .got none, .count 1], ⟨r2, 1⟩) := by
  obtain ⟨l, r1, h1, h2, h3⟩ := C125_seq_partial (β := Option Bool) .default demoEnv (.option .bool) (.vec (.option .bool))
    (.inl ⟨rfl, rfl⟩) [3, 1, 1, 0, 0, 5] [5] [some true, none, none] rfl
  have hl : l = [some true, none, none] := by
    have : (vecC .default (demoEnv.cap (.option .bool : Ty Empty)) ((Ty.option .bool).codec .default demoEnv)).dec
      [3, 1, 1, 0, 0, 5] = .ok ([some true, none, none], [5]) := rfl
    rw [this] at h1
    cases h1
    rfl
  subst hl
  obtain ⟨r2, h4, -⟩ := h3 lost [.offer, .walk (demoFullWalk lost), .item (Observer.decode _), .count]
  exact ⟨r1, r2, h2, h4⟩

example := C125_map_safe (β := BitVec 8) .default id [2, 1, 7] [1, 7] ⟨2⟩ rfl
  [.next, .drop, .key (pure 1), .next, .key (pure 2), .next, .value (pure 3)]
  (by simp [MapCall.Quiet, Rd.NoPanic])

example := C125_seq_safe (β := BitVec 8) .default id [2, 1, 7] [1, 7] ⟨2⟩ rfl
  [.offer, .item (pure 1), .walk fun s => (.err .io, s), .count]
  (by simp [SeqCall.Quiet, Rd.NoPanic, Opening.Quiet])

example := C125_refused_item .default id (.int .u8 : Ty Empty) rfl (fun _ => (pure 0 : Rd Nat)) [1, 2] 3

/-- A key that cannot be read, tried again: the entry is still before its key, and its value is refused. -/
example : ∃ as σ, MapState.run (β := BitVec 8) id [.next, .key (Rd.fail .io), .value (pure 3)] ⟨[1, 7], 2, none⟩ = (as, σ) ∧
    as = [.offered true, .failed .io, .failed .deserialize] ∧ σ.reader = [1, 7] := by
  obtain ⟨as, σ, a, σ', h1, h2, h3, h4⟩ := C125_order (β := BitVec 8) .default id [2, 1, 7] [1, 7] ⟨2⟩ rfl
    [.next, .key (Rd.fail .io)] (.value (pure 3))
  have h : MapState.run id [.next, .key (Rd.fail .io)] (⟨[1, 7], 2, none⟩ : MapState) =
    (([.offered true, .failed .io] : List (Answer (BitVec 8))), ⟨[1, 7], 2, some .beforeKey⟩) := rfl
  cases h.symm.trans h1
  obtain ⟨_, rfl, h5, _⟩ := h4
  exact ⟨_, _, h3, rfl, h5⟩

/-- An item that cannot be read: two are still to come, and the next read starts where the failed one stopped. -/
example : ∃ as σ, SeqState.run (β := BitVec 8) (·.drop 1) [.item (Rd.fail .io), .item (decInt .default .u8)]
    ⟨[1, 7], 2⟩ = (as, σ) ∧ as = [.failed .io, .got 7] ∧ σ = ⟨[], 1⟩ := by
  obtain ⟨as, σ, a, σ', h1, h2, h3, h4⟩ := C125_seq_order (β := BitVec 8) .default (·.drop 1) [2, 1, 7] [1, 7] ⟨2⟩ rfl
    [.item (Rd.fail .io)] (.item (decInt .default .u8))
  have h : SeqState.run (·.drop 1) [.item (Rd.fail .io)] (⟨[1, 7], 2⟩ : SeqState) =
    (([.failed .io] : List (Answer (BitVec 8))), ⟨[7], 2⟩) := rfl
  cases h.symm.trans h1
  obtain ⟨h5, h6, h7⟩ := h4
  obtain ⟨r, n⟩ := σ'
  cases h6
  cases h7
  cases h5
  exact ⟨_, _, h3, rfl, rfl⟩

example : (Ty.result (.int .u8) .unit : Ty Empty).opening .default id (fun _ => (pure 0 : Rd Nat)) [2, 7] =
    (.err .deserialize, [7]) :=
  (C125_bad_tag .default id (.int .u8) .unit _ [2, 7] [7]).2 2 rfl (by decide) (by decide)

/-- `Box<Box<Option<u8>>>` on a bad tag: the tag has been read. -/
example : (Ty.boxed (.option (.int .u8) : Ty Empty) 2).opening .default id (fun _ => (pure 0 : Rd Nat)) [9, 1] =
    (.err .deserialize, [1]) :=
  (C125_boxed ..).trans rfl

end Revision
