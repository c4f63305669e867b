import Verif.Spec.GenericSession
import Verif.Props.Session
import Verif.Proofs.DeriveTy

/-! # C127: sessions with the generic struct walker -/

namespace Revision

open GenericUse

theorem generic_use_call {β : Type} (lost : Bytes → Bytes) (revision n : Nat) (u : GenericUse β) (hv : u.Valid)
    (b t : Bytes) (hb : u.bytes = .ok b) (hn : n + u.starts < 2 ^ 32) :
    GenericState.call lost u.toCall ⟨b ++ t, revision, n⟩ = (u.answer revision n, ⟨t, revision, n + u.starts⟩) := by
  cases u with
  | revision => simp [bytes] at hb; subst hb; rfl
  | position => simp [bytes] at hb; subst hb; rfl
  | refused e => simp [bytes] at hb; subst hb; rfl
  | raw c a o =>
    have := Rd.at_ok (lost := lost) (o.follows _ _ _ (hv.1.round_trip a b hv.2 hb t))
    simp only [toCall, GenericState.call, this]
    rfl
  | field c a o =>
    have := Rd.at_ok (lost := lost) (o.follows _ _ _ (hv.1.round_trip a b hv.2 hb t))
    simp only [toCall, GenericState.call, this, GenericState.started]
    rw [if_pos (show n + 1 < 2 ^ 32 from hn)]
    rfl
  | walk c a w =>
    obtain ⟨use, r', h1, h2⟩ := w.follows _ _ _ (hv.1.round_trip a b hv.2 hb t)
    simp only [toCall, GenericState.call, h1, GenericState.started]
    rw [if_pos (show n + 1 < 2 ^ 32 from hn)]
    simp only [Rd.at_ok h2]
    rfl

/-- **C127** (with a caller who knows the fields).  Over fields serialised one after another, of any types,
with other data between them that is read through `reader()`, a session of any length that takes the fields in
order - each decoded, skipped, inspected or walked to its end, walks that are refused before reading included -
answers for each field with its value, `position()` with the number of fields before it, and leaves the reader
behind the last of them.  Partial: a nested walker dropped halfway and a walk that fails after reading put the
walker out of step (`C127_dropped_walk_false`, `C127_failed_walk_false`), and the counter has 32 bits
(`C127_counter_false`). -/
theorem C127_session_partial {β : Type} (session : List (GenericUse β)) (hv : ∀ u ∈ session, u.Valid)
    (b : Bytes) (hb : data session = .ok b) (hn : count session < 2 ^ 32) (revision : Nat) (t : Bytes)
    (lost : Bytes → Bytes) :
    GenericState.run lost (session.map toCall) (.new (b ++ t) revision) =
      (answers revision session 0, ⟨t, revision, count session⟩) := by
  have main : ∀ (us : List (GenericUse β)) (n : Nat) (b : Bytes), (∀ u ∈ us, u.Valid) → data us = .ok b →
      n + count us < 2 ^ 32 →
      GenericState.run lost (us.map toCall) ⟨b ++ t, revision, n⟩ =
        (answers revision us n, ⟨t, revision, n + count us⟩) := by
    intro us
    induction us with
    | nil =>
      intro n b _ hb _
      simp [data] at hb
      subst hb
      rfl
    | cons u us ih =>
      intro n b hv hb hn
      obtain ⟨b1, h1, hb⟩ := Res.bind_eq_ok.1 hb
      obtain ⟨b2, h2, hb⟩ := Res.bind_eq_ok.1 hb
      simp at hb
      subst hb
      have hc : count (u :: us) = u.starts + count us := by simp [count]
      rw [hc] at hn ⊢
      simp only [List.map_cons, GenericState.run, List.append_assoc]
      rw [generic_use_call lost revision n u (hv u (List.mem_cons_self ..)) b1 (b2 ++ t) h1 (by omega)]
      simp only [ih (n + u.starts) b2 (fun u hu => hv u (List.mem_cons_of_mem _ hu)) h2 (by omega), answers,
        Nat.add_assoc]
  have := main session 0 b hv hb (by omega)
  rwa [Nat.zero_add] at this

theorem generic_call_position {β : Type} (lost : Bytes → Bytes) (c : GenericCall β) (σ : GenericState)
    (hn : σ.position + 1 < 2 ^ 32) :
    (σ.call lost c).2.position = σ.position + ((σ.call lost c).1.succeeded).toNat ∧
      (σ.call lost c).2.revision = σ.revision := by
  cases c with
  | revision => exact ⟨rfl, rfl⟩
  | position => exact ⟨rfl, rfl⟩
  | raw m => exact ⟨rfl, rfl⟩
  | field m =>
    simp only [GenericState.call]
    generalize m.at lost σ.reader = q
    obtain ⟨q, r⟩ := q
    cases q with
    | ok v => simp only [GenericState.started, if_pos hn]; exact ⟨rfl, trivial⟩
    | err e => exact ⟨rfl, rfl⟩
    | panic => exact ⟨rfl, rfl⟩
  | walk opn =>
    simp only [GenericState.call]
    generalize opn σ.reader = q
    obtain ⟨q, r⟩ := q
    cases q with
    | ok use => simp only [GenericState.started, if_pos hn]; exact ⟨rfl, trivial⟩
    | err e => exact ⟨rfl, rfl⟩
    | panic => exact ⟨rfl, rfl⟩

theorem generic_run_position {β : Type} (lost : Bytes → Bytes) (cs : List (GenericCall β)) :
    ∀ σ : GenericState, σ.position + cs.length < 2 ^ 32 →
      (σ.run lost cs).2.position = σ.position + succeededIn (σ.run lost cs).1 ∧
        (σ.run lost cs).2.revision = σ.revision := by
  induction cs with
  | nil => exact fun σ _ => ⟨rfl, rfl⟩
  | cons c cs ih =>
    intro σ hn
    simp only [List.length_cons] at hn
    obtain ⟨h1, h2⟩ := generic_call_position lost c σ (by omega)
    have hb : ((σ.call lost c).1.succeeded).toNat ≤ 1 := Bool.toNat_le _
    obtain ⟨h3, h4⟩ := ih (σ.call lost c).2 (by omega)
    refine ⟨?_, h4.trans h2⟩
    show ((σ.call lost c).2.run lost cs).2.position = _
    rw [h3, h1]
    show _ = σ.position + succeededIn ((σ.call lost c).1 :: ((σ.call lost c).2.run lost cs).1)
    simp only [succeededIn, List.filter_cons]
    cases (σ.call lost c).1.succeeded <;> simp <;> omega

theorem generic_run_append {β : Type} (lost : Bytes → Bytes) (as bs : List (GenericCall β)) (σ : GenericState) :
    σ.run lost (as ++ bs) =
      ((σ.run lost as).1 ++ ((σ.run lost as).2.run lost bs).1, ((σ.run lost as).2.run lost bs).2) := by
  induction as generalizing σ with
  | nil => rfl
  | cons a as ih => simp only [List.cons_append, GenericState.run, ih]

/-- **C127** (what the counter counts).  On any bytes, whatever the calls are and whichever of them fail,
`position()` answers with the number of calls of `decode`, `skip` and `walk` before it that succeeded, and
`revision()` with the revision the walker was made with - for sessions of fewer than 2^32 calls. -/
theorem C127_position_partial {β : Type} (lost : Bytes → Bytes) (s : Bytes) (revision : Nat)
    (before after : List (GenericCall β)) (hn : before.length < 2 ^ 32) :
    ((GenericState.new s revision).run lost (before ++ .position :: after)).1[before.length]? =
        some (.number (succeededIn ((GenericState.new s revision).run lost before).1)) ∧
      ((GenericState.new s revision).run lost (before ++ .revision :: after)).1[before.length]? =
        some (.number revision) ∧
      ∀ c, ((GenericState.new s revision).run lost (before ++ c :: after)).1.take before.length =
        ((GenericState.new s revision).run lost before).1 := by
  have hl : ∀ (cs : List (GenericCall β)) (σ : GenericState), (σ.run lost cs).1.length = cs.length := by
    intro cs
    induction cs with
    | nil => exact fun _ => rfl
    | cons c cs ih => exact fun σ => by simp only [GenericState.run, List.length_cons, ih]
  obtain ⟨h1, h2⟩ := generic_run_position lost before (.new s revision) (by simpa [GenericState.new] using hn)
  have hb := hl before (.new s revision)
  refine ⟨?_, ?_, fun c => ?_⟩
  · rw [generic_run_append, List.getElem?_append_right (by omega), hb, Nat.sub_self]
    simp only [GenericState.run, GenericState.call, List.getElem?_cons_zero, h1]
    simp [GenericState.new]
  · rw [generic_run_append, List.getElem?_append_right (by omega), hb, Nat.sub_self]
    simp only [GenericState.run, GenericState.call, List.getElem?_cons_zero, h2]
    rfl
  · rw [generic_run_append]
    simp only
    rw [← hb, List.take_left]

/-- **C127** (where the reader stands).  On any bytes and whatever failed before, a field is read where the reader
stands, which is left behind what was read or where the failed read stopped; a nested walker that opens counts as
a field, whatever becomes of the walk, and one that does not leaves the reader where the opening left it; the
caller's own reads from `reader()` count nothing - for sessions of fewer than 2^32 calls. -/
theorem C127_reader_partial {β : Type} (lost : Bytes → Bytes) (s : Bytes) (revision : Nat)
    (before : List (GenericCall β)) (c : GenericCall β) (hn : before.length + 1 < 2 ^ 32) :
    ∃ as σ a σ', (GenericState.new s revision).run lost before = (as, σ) ∧ as.length = before.length ∧
      (GenericState.new s revision).run lost (before ++ [c]) = (as ++ [a], σ') ∧
      match c with
      | .revision => a = .number revision ∧ σ' = σ
      | .position => a = .number (succeededIn as) ∧ σ' = σ
      | .field m => a.Of m σ.reader ∧ σ'.reader = m.leaves lost σ.reader
      | .walk opn =>
        match opn σ.reader with
        | (.ok use, r) => (∃ q, a = .opened q ∧ q.SameAs use r) ∧ σ'.reader = use.leaves lost r
        | (.err e, r) => a = .failed e ∧ σ'.reader = r
        | (.panic, r) => a = .panicked ∧ σ'.reader = r
      | .raw m => (∃ q, a = .read q ∧ q.SameAs m σ.reader) ∧ σ'.reader = m.leaves lost σ.reader := by
  have hl : ∀ (cs : List (GenericCall β)) (σ : GenericState), (σ.run lost cs).1.length = cs.length := by
    intro cs
    induction cs with
    | nil => exact fun _ => rfl
    | cons c cs ih => exact fun σ => by simp only [GenericState.run, List.length_cons, ih]
  obtain ⟨h1, h2⟩ := generic_run_position lost before (.new s revision) (by simp only [GenericState.new]; omega)
  have hb := hl before (.new s revision)
  have h3 : succeededIn ((GenericState.new s revision).run lost before).1 ≤ before.length := by
    rw [← hb]
    exact List.length_filter_le ..
  refine ⟨_, _, _, _, rfl, hb, generic_run_append .., ?_⟩
  generalize hσ : (GenericState.new s revision).run lost before = q at *
  obtain ⟨as, r, rev, pos⟩ := q
  simp only [GenericState.new] at h1 h2 hb h3
  have hp : pos + 1 < 2 ^ 32 := by omega
  cases c with
  | revision => exact ⟨by rw [← h2], rfl⟩
  | position => exact ⟨by rw [show succeededIn as = pos by omega], rfl⟩
  | field m =>
    simp only [GenericState.run, GenericState.call, GenericAnswer.Of, Rd.at, Rd.leaves, GenericState.started, if_pos hp]
    generalize m r = q
    rcases q with ⟨v, r⟩ | e | _ <;> exact ⟨rfl, rfl⟩
  | walk opn =>
    simp only [GenericState.run, GenericState.call]
    generalize opn r = q
    rcases q with ⟨use | e | _, r⟩
    · simp only [Rd.at, Rd.leaves, GenericState.started, if_pos hp, Res.SameAs]
      generalize use r = q
      rcases q with ⟨v, r⟩ | e | _ <;> exact ⟨⟨_, rfl, rfl⟩, rfl⟩
    · exact ⟨rfl, rfl⟩
    · exact ⟨rfl, rfl⟩
  | raw m =>
    simp only [GenericState.run, GenericState.call, Rd.at, Rd.leaves, Res.SameAs]
    generalize m r = q
    rcases q with ⟨v, r⟩ | e | _ <;> exact ⟨⟨_, rfl, rfl⟩, rfl⟩

/-- **C127** (no panic).  On any bytes no session of fewer than 2^32 calls panics, unless one of the reads
the caller asks for does. -/
theorem C127_safe_partial {β : Type} (lost : Bytes → Bytes) (s : Bytes) (revision : Nat)
    (session : List (GenericCall β)) (hq : ∀ c ∈ session, c.Quiet) (hn : session.length < 2 ^ 32) :
    ∀ a ∈ ((GenericState.new s revision).run lost session).1, ¬ a.IsPanic := by
  have quiet : ∀ (m : Rd β) (s : Bytes), m.NoPanic → (m.at lost s).1 ≠ .panic := by
    intro m s hm
    rw [Rd.at_res]
    have := hm s
    cases hs : m s with
    | ok a => exact nofun
    | err e => exact nofun
    | panic => exact absurd hs this
  have main : ∀ (cs : List (GenericCall β)) (σ : GenericState), (∀ c ∈ cs, c.Quiet) →
      σ.position + cs.length < 2 ^ 32 → ∀ a ∈ (σ.run lost cs).1, ¬ a.IsPanic := by
    intro cs
    induction cs with
    | nil => exact fun _ _ _ => nofun
    | cons c cs ih =>
      intro σ hq hn a ha
      simp only [List.length_cons] at hn
      rcases List.mem_cons.1 ha with rfl | ha
      · have hc := hq c (List.mem_cons_self ..)
        cases c with
        | revision => exact id
        | position => exact id
        | raw m => exact quiet m _ hc
        | field m =>
          have := quiet m σ.reader hc
          simp only [GenericState.call]
          generalize m.at lost σ.reader = q at this
          obtain ⟨q, r⟩ := q
          cases q with
          | ok v => simp only [GenericState.started, if_pos (show σ.position + 1 < 2 ^ 32 by omega)]; exact id
          | err e => exact id
          | panic => exact absurd rfl this
        | walk opn =>
          obtain ⟨h1, h2⟩ := hc σ.reader
          simp only [GenericState.call]
          generalize opn σ.reader = q at h1 h2
          obtain ⟨q, r⟩ := q
          cases q with
          | ok use =>
            simp only [GenericState.started, if_pos (show σ.position + 1 < 2 ^ 32 by omega)]
            exact quiet use r (h2 use rfl)
          | err e => exact id
          | panic => exact absurd rfl h1
      · obtain ⟨h1, _⟩ := generic_call_position lost c σ (by omega)
        have hb : ((σ.call lost c).1.succeeded).toNat ≤ 1 := Bool.toNat_le _
        exact ih (σ.call lost c).2 (fun c hc => hq c (List.mem_cons_of_mem _ hc)) (by omega) a ha
  exact main session _ hq (by simpa [GenericState.new] using hn)

/-- **C127 fails** for a nested walker dropped before its end, although "the parent walker can resume after it
is dropped": of the fields `Some(7)` and `9`, an `Option<u8>` and a `u8`, walking into the first and dropping
the walker leaves `position()` at 1 and the reader before the 7. -/
theorem C127_dropped_walk_false (lost : Bytes → Bytes) :
    (do let a ← ((Ty.option (.int .u8) : Ty Empty).codec .default demoEnv).enc (some 7)
        let b ← ((Ty.int .u8 : Ty Empty).codec .default demoEnv).enc 9
        pure (a ++ b)) = .ok [1, 7, 9] ∧
    (GenericState.run lost
      [.walk ((Ty.option (.int .u8) : Ty Empty).opening .default lost fun _ => pure 0),
        .position, .field (decInt .default .u8)] (.new [1, 7, 9] 1)).1 = [.opened (.ok 0), .number 1, .got 7] :=
  ⟨by rfl, by rfl⟩

/-- **C127 fails** for a nested walk that fails on its tag, although the README says that "a failed nested walk
does not desynchronise the parent walker from the byte stream": `position()` is still 0, and the field is
gone. -/
theorem C127_failed_walk_false (lost : Bytes → Bytes) :
    (GenericState.run lost
      [.walk ((Ty.option (.int .u8) : Ty Empty).opening .default lost fun _ => pure 0),
        .position, .field (decInt .default .u8)] (.new [5, 7, 9] 1)) =
      ([.failed .deserialize, .number 0, .got 7], ⟨[9], 1, 1⟩) := by rfl

/-- **C127 fails** for sessions of 2^32 calls: where overflow is checked the walker panics, on valid data, here
of no bytes at all: `()` decoded 2^32 times. -/
theorem C127_counter_false (lost : Bytes → Bytes) :
    (unitC.enc () = .ok [] ∧ unitC.dec [] = .ok ((), [])) ∧
    ∃ a ∈ (GenericState.run lost (List.replicate (2 ^ 32) (.field unitC.dec)) (.new [] 1)).1, a.IsPanic := by
  refine ⟨⟨rfl, rfl⟩, ?_⟩
  have main : ∀ n p, p < 2 ^ 32 → 2 ^ 32 ≤ p + n →
      ∃ a ∈ (GenericState.run lost (List.replicate n (.field unitC.dec)) ⟨[], 1, p⟩).1, a.IsPanic := by
    intro n
    induction n with
    | zero => intro p h1 h2; omega
    | succ n ih =>
      intro p h1 h2
      have hc : GenericState.call lost (.field unitC.dec) ⟨[], 1, p⟩ =
          GenericState.started ⟨[], 1, p⟩ [] (.got ()) := rfl
      simp only [List.replicate_succ, GenericState.run, hc, GenericState.started]
      by_cases h : p + 1 < 2 ^ 32
      · simp only [if_pos h]
        obtain ⟨a, ha, hp⟩ := ih (p + 1) h (by omega)
        exact ⟨a, List.mem_cons_of_mem _ ha, hp⟩
      · simp only [if_neg h]
        exact ⟨_, List.mem_cons_self .., trivial⟩
  have pos : 0 < 2 ^ 32 := by decide
  generalize 2 ^ 32 = N at main pos ⊢
  exact main N 0 pos (by omega)

/-! ### Non-vacuity -/

/-- The types of the example can be read back. -/
theorem generic_demo_faithful (t : Ty Empty) : (t.codec .default demoEnv).Faithful :=
  Ty.codec_faithful .default demoEnv_lawful (fun i => nomatch i) t

/-- A `bool`, a refused walk, an `Option<bool>` walked to its end, a `bool` between the fields, and a `bool`
again. -/
def demoGenericUse (lost : Bytes → Bytes) : List (GenericUse (Option Bool)) :=
  let bool := (Ty.bool : Ty Empty).codec .default demoEnv
  [.field bool true ((Observer.decode bool).map some), .refused .deserialize, .position,
    .walk ((Ty.option .bool : Ty Empty).codec .default demoEnv) (some false) (demoFullWalk lost),
    .raw bool true ((Observer.decode bool).map some), .position, .field bool false ((Observer.decode bool).map some),
    .revision]

example (lost : Bytes → Bytes) :
    GenericState.run lost ((demoGenericUse lost).map toCall) (.new ([1, 1, 0, 1, 0] ++ [9]) 4) =
      ([.got (some true), .failed .deserialize, .number 1, .opened (.ok (some false)), .read (.ok (some true)),
        .number 2, .got (some false), .number 4], ⟨[9], 4, 3⟩) :=
  C127_session_partial (demoGenericUse lost)
    (by
      have hb := generic_demo_faithful .bool
      have ho := generic_demo_faithful (.option .bool)
      intro u hu
      simp only [demoGenericUse, List.mem_cons, List.not_mem_nil, or_false] at hu
      rcases hu with rfl | rfl | rfl | rfl | rfl | rfl | rfl | rfl
      · exact ⟨hb, trivial⟩
      · trivial
      · trivial
      · exact ⟨ho, trivial⟩
      · exact ⟨hb, trivial⟩
      · trivial
      · exact ⟨hb, trivial⟩
      · trivial)
    [1, 1, 0, 1, 0] rfl (by show 3 < 2 ^ 32; decide) 4 [9] lost

/-- A session on bytes nobody wrote: the second of three reads fails. -/
example := C127_position_partial (β := BitVec 8) id [1, 2] 3
  [.field (decInt .default .u8), .field (Rd.fail .io), .walk fun s => (.ok (decInt .default .u8), s)] [.revision]
  (by decide)

/-- After the failed read, which skipped a byte, the next field is the third byte, and it is the second. -/
example : ∃ as σ, (GenericState.new [1, 2, 7] 3).run (β := BitVec 8) (·.drop 1)
    [.field (decInt .default .u8), .field (Rd.fail .io), .field (decInt .default .u8)] = (as, σ) ∧
    as = [.got 1, .failed .io, .got 7] ∧ σ.reader = [] := by
  obtain ⟨as, σ, a, σ', h1, h2, h3, h4, h5⟩ := C127_reader_partial (β := BitVec 8) (·.drop 1) [1, 2, 7] 3
    [.field (decInt .default .u8), .field (Rd.fail .io)] (.field (decInt .default .u8)) (by decide)
  have h : (GenericState.new [1, 2, 7] 3).run (·.drop 1) [.field (decInt .default .u8), .field (Rd.fail .io)] =
    (([.got 1, .failed .io] : List (GenericAnswer (BitVec 8))), ⟨[7], 3, 1⟩) := rfl
  cases h.symm.trans h1
  cases h4
  exact ⟨_, _, h3, rfl, h5⟩

example := C127_safe_partial (β := BitVec 8) id [1, 2] 3
  [.field (pure 1), .position, .raw (pure 2), .walk fun s => (.err .io, s)]
  (by simp [GenericCall.Quiet, Rd.NoPanic, Opening.Quiet]) (by decide)

end Revision
