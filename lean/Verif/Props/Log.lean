import Verif.Spec.Log
import Verif.Props.DeriveIo
import Verif.Proofs.Ints

/-!
# Property C120: what is left of a log after a crash

Spec: `Spec/Log.lean` (`Record`, `logBytes`, `ReadsLog`).
-/

namespace Revision

theorem encU16_ne_nil (cfg : Cfg) (n : Nat) : encU16 cfg n ≠ [] := by
  intro h
  have h := congrArg List.length h
  revert h
  unfold encU16
  simp only [encInt]
  split
  · intro h; cases h
  · rw [encodeU64_length]
    unfold varintSize
    intro h
    split at h <;> (try split at h) <;> (try split at h) <;> (try split at h) <;> cases h

section
variable {ι : Type} [DecidableEq ι]

theorem Body.codec_enc_ne_nil {K : ι → Kind} {cfg : Cfg} {I : Impls K} {n : Nat} {c : (i : ι) → Codec (Values K n i)}
    {h : List Entry} {k : Kind} (B : Body K k) (hk : ∀ X, k ≠ .foreign X) (v : k.values (DynAt K n)) (b : Bytes)
    (hb : (B.codec cfg I n c h).enc v = .ok b) : b ≠ [] := by
  have key : ∀ r : Res Bytes, (do let b ← r; pure (encU16 cfg (latest h) ++ b)) = .ok b → b ≠ [] := by
    intro r hr
    cases r with
    | ok x =>
      cases hr
      exact fun h0 => encU16_ne_nil _ _ (List.append_eq_nil_iff.1 h0).1
    | err e => cases hr
    | panic => cases hr
  cases B with
  | struct fs => exact key _ hb
  | enum vs => exact key _ hb
  | foreign x => exact absurd rfl (hk _)

theorem Record.bytes_ne_nil {cfg : Cfg} {P : Program ι} {i : ι} (hk : ∀ X, P.kind i ≠ .foreign X) (x : Record P i)
    {b : Bytes} (h : x.bytes cfg = .ok b) : b ≠ [] := by
  obtain ⟨r, I, n, v⟩ := x
  cases n with
  | zero => exact nomatch v
  | succ n => exact Body.codec_enc_ne_nil ((P.asOf r).body i) hk v b h

end

/-- A log whose records are read, and of which any part is refused with an error of a kind `E`, cut anywhere. -/
theorem readsLog_cut {V : Type} {read : Rd V} {E : Err → Prop} (bs : List (Bytes × V))
    (h : ∀ x ∈ bs, x.1 ≠ [] ∧ (∀ t, read (x.1 ++ t) = .ok (x.2, t)) ∧
      ∀ p q, x.1 = p ++ q → q ≠ [] → ∃ e, E e ∧ read p = .err e) (p q : Bytes)
    (hpq : (bs.map Prod.fst).flatten = p ++ q) :
    ∃ k tail, k ≤ bs.length ∧ p = ((bs.take k).map Prod.fst).flatten ++ tail ∧
      (tail = [] ∧ ReadsLog read p ((bs.take k).map Prod.snd) (.ok ()) [] ∨
        tail ≠ [] ∧ (∃ x q, bs[k]? = some x ∧ x.1 = tail ++ q ∧ q ≠ []) ∧
          ∃ e, E e ∧ ReadsLog read p ((bs.take k).map Prod.snd) (.err e) tail) := by
  induction bs generalizing p with
  | nil =>
    have := (List.append_eq_nil_iff.1 hpq.symm).1
    subst this
    exact ⟨0, [], Nat.le_refl _, rfl, .inl ⟨rfl, .atEnd⟩⟩
  | cons x bs ih =>
    obtain ⟨h1, h2, h3⟩ := h x (.head _)
    have hpq : x.1 ++ (bs.map Prod.fst).flatten = p ++ q := hpq
    rcases List.append_eq_append_iff.1 hpq with ⟨z, rfl, hz⟩ | ⟨z, hx, hz⟩
    · obtain ⟨k, tail, hk, ht, hr⟩ := ih (fun y hy => h y (.tail _ hy)) z hz
      refine ⟨k + 1, tail, Nat.succ_le_succ hk, ?_, ?_⟩
      · show _ = (x.1 ++ _) ++ tail
        rw [List.append_assoc, ← ht]
      · have hne : x.1 ++ z ≠ [] := fun h0 => h1 (List.append_eq_nil_iff.1 h0).1
        rcases hr with ⟨rfl, hr⟩ | ⟨ht, hx, e, he, hr⟩
        · exact .inl ⟨rfl, .next hne (h2 z) hr⟩
        · exact .inr ⟨ht, hx, e, he, .next hne (h2 z) hr⟩
    · by_cases hp : p = []
      · subst hp
        exact ⟨0, [], Nat.zero_le _, rfl, .inl ⟨rfl, .atEnd⟩⟩
      · by_cases hz0 : z = []
        · subst hz0
          rw [List.append_nil] at hx
          subst hx
          obtain ⟨k, tail, hk, ht, hr⟩ := ih (fun y hy => h y (.tail _ hy)) [] hz.symm
          obtain ⟨ht1, rfl⟩ := List.append_eq_nil_iff.1 ht.symm
          refine ⟨1, [], by simp, by simp, .inl ⟨rfl, ?_⟩⟩
          refine .next hp (by have := h2 []; rwa [List.append_nil] at this) ?_
          simpa using ReadsLog.atEnd
        · obtain ⟨e, he, hr⟩ := h3 p z hx hz0
          exact ⟨0, p, Nat.zero_le _, rfl, .inr ⟨hp, ⟨x, z, rfl, hx, hz0⟩, e, he, .failed hp hr⟩⟩

section
variable {ι : Type} [DecidableEq ι] {P : Program ι} {i : ι} {W : Type}

/-- The records of a log with what was written for each. -/
theorem logBytes_split {cfg : Cfg} : ∀ {recs : List (Record P i × W)} {log : Bytes},
    logBytes cfg (recs.map Prod.fst) = .ok log →
    ∃ l : List (Bytes × W), l.length = recs.length ∧ (l.map Prod.fst).flatten = log ∧
      (∀ x ∈ l, ∃ r ∈ recs, r.1.bytes cfg = .ok x.1 ∧ r.2 = x.2) ∧
      (∀ k, logBytes cfg ((recs.take k).map Prod.fst) = .ok ((l.take k).map Prod.fst).flatten) ∧
      (∀ k, (l.take k).map Prod.snd = (recs.take k).map Prod.snd) ∧
      ∀ (k : Nat) (x : Bytes × W), l[k]? = some x →
        ∃ r : Record P i × W, recs[k]? = some r ∧ r.1.bytes cfg = .ok x.1
  | [], log, h => by
    cases h
    exact ⟨[], rfl, rfl, nofun, fun k => by simp [logBytes], fun k => by simp, fun k x h => by simp at h⟩
  | r :: recs, log, h => by
    obtain ⟨b, hb, h⟩ := Res.bind_eq_ok.1 (show (do let b ← r.1.bytes cfg; let bs ← logBytes cfg (recs.map Prod.fst); pure (b ++ bs)) = .ok log from h)
    obtain ⟨bs, hbs, h⟩ := Res.bind_eq_ok.1 h
    cases h
    obtain ⟨l, h1, h2, h3, h4, h5, h6⟩ := logBytes_split hbs
    refine ⟨(b, r.2) :: l, by simp [h1], by simp [h2], ?_, ?_, ?_, ?_⟩
    · intro x hx
      rcases List.mem_cons.1 hx with rfl | hx
      · exact ⟨r, .head _, hb, rfl⟩
      · obtain ⟨r', hr', h⟩ := h3 x hx
        exact ⟨r', .tail _ hr', h⟩
    · intro k
      cases k with
      | zero => rfl
      | succ k =>
        simp only [List.take_succ_cons, List.map_cons, logBytes, hb, h4 k]
        rfl
    · intro k
      cases k with
      | zero => rfl
      | succ k => simp only [List.take_succ_cons, List.map_cons, h5 k]
    · intro k x hx
      cases k with
      | zero => cases hx; exact ⟨r, rfl, hb⟩
      | succ k => exact h6 k x hx

/-- A log of records, each of which is read and of which every part is refused with an error of a kind `E`. -/
theorem log_cut {cfg : Cfg} {read : Rd W} {E : Err → Prop} (hk : ∀ X, P.kind i ≠ .foreign X)
    (recs : List (Record P i × W))
    (h : ∀ x ∈ recs, ∀ b, x.1.bytes cfg = .ok b → (∀ t, read (b ++ t) = .ok (x.2, t)) ∧
      ∀ p q, b = p ++ q → q ≠ [] → ∃ e, E e ∧ read p = .err e)
    (p q : Bytes) (hl : logBytes cfg (recs.map Prod.fst) = .ok (p ++ q)) :
    ∃ k done tail, k ≤ recs.length ∧ logBytes cfg ((recs.take k).map Prod.fst) = .ok done ∧ p = done ++ tail ∧
      (tail = [] ∧ ReadsLog read p ((recs.take k).map Prod.snd) (.ok ()) [] ∨
        tail ≠ [] ∧ (∃ x q, recs[k]? = some x ∧ x.1.bytes cfg = .ok (tail ++ q) ∧ q ≠ []) ∧
          ∃ e, E e ∧ ReadsLog read p ((recs.take k).map Prod.snd) (.err e) tail) := by
  obtain ⟨l, h1, h2, h3, h4, h5, h6⟩ := logBytes_split hl
  obtain ⟨k, tail, g1, g2, g3⟩ := readsLog_cut (read := read) (E := E) l (by
    intro x hx
    obtain ⟨r, hr, hb, he⟩ := h3 x hx
    rw [← he]
    exact ⟨r.1.bytes_ne_nil hk hb, h r hr _ hb⟩) p q h2
  refine ⟨k, _, tail, h1 ▸ g1, h4 k, g2, ?_⟩
  rw [← h5 k]
  refine g3.imp id fun ⟨a, ⟨x, q, hx, hq, hne⟩, c⟩ => ⟨a, ?_, c⟩
  obtain ⟨r, hr, hb⟩ := h6 k x hx
  exact ⟨r, q, hr, hq ▸ hb, hne⟩

end

section
variable {ι : Type} [DecidableEq ι] (cfg : Cfg) (P : Program ι) (I : Impls P.kind)

theorem Record.ReadAs.dec {m : Nat} {i : ι} {x : Record P i} {w : Values P.kind m i} (h : x.ReadAs cfg I m w) {b : Bytes}
    (hb : x.bytes cfg = .ok b) (t : Bytes) : (P.codec cfg I m i).dec (b ++ t) = .ok (w, t) := by
  have := (C74_nested_migration_partial cfg P x.impls I x.rev h.readable h.allocated x.depth m h.depth i x.value b h.valid
    hb t).1
  rw [h.migrated] at this
  exact Res.ok?_eq_some.1 this

/-- C120: a log to which versions of a program have appended records, cut anywhere: the current program reads the
records that are complete, each migrated, then stops at the start of the one that was cut, with `Error::Io`; it reports
no error if none was cut.
Missing: `Result` and `Bound` fields at legacy revisions (`C92_truncated_false`; see `C120_recover_kind_partial`), and
what is missing from `C74_nested_migration_partial`. -/
theorem C120_recover_partial (hP : P.PlainErrors) (m : Nat) (i : ι) (hk : ∀ X, P.kind i ≠ .foreign X)
    (recs : List (Record P i × Values P.kind m i)) (h : ∀ x ∈ recs, x.1.ReadAs cfg I m x.2) (p q : Bytes)
    (hl : logBytes cfg (recs.map Prod.fst) = .ok (p ++ q)) :
    ∃ k done tail, k ≤ recs.length ∧ logBytes cfg ((recs.take k).map Prod.fst) = .ok done ∧ p = done ++ tail ∧
      (tail = [] ∧ ReadsLog (P.codec cfg I m i).dec p ((recs.take k).map Prod.snd) (.ok ()) [] ∨
        tail ≠ [] ∧ (∃ x q, recs[k]? = some x ∧ x.1.bytes cfg = .ok (tail ++ q) ∧ q ≠ []) ∧
          ReadsLog (P.codec cfg I m i).dec p ((recs.take k).map Prod.snd) (.err .io) tail) := by
  obtain ⟨k, done, tail, h1, h2, h3, h4⟩ := log_cut (read := (P.codec cfg I m i).dec) (E := (· = .io)) hk recs (by
    intro x hx b hb
    refine ⟨(h x hx).dec cfg P I hb, fun p q hpq hq => ⟨.io, rfl, ?_⟩⟩
    exact C92_truncated_partial cfg P I hP m i x.2 p q [] hq (by rw [← hpq]; exact (h x hx).dec cfg P I hb [])) p q hl
  refine ⟨k, done, tail, h1, h2, h3, h4.imp id ?_⟩
  rintro ⟨a, b, e, rfl, c⟩
  exact ⟨a, b, c⟩

/-- C120: for all programs, the error is `Error::Io` or `Error::Deserialize`. -/
theorem C120_recover_kind_partial (m : Nat) (i : ι) (hk : ∀ X, P.kind i ≠ .foreign X)
    (recs : List (Record P i × Values P.kind m i)) (h : ∀ x ∈ recs, x.1.ReadAs cfg I m x.2) (p q : Bytes)
    (hl : logBytes cfg (recs.map Prod.fst) = .ok (p ++ q)) :
    ∃ k done tail, k ≤ recs.length ∧ logBytes cfg ((recs.take k).map Prod.fst) = .ok done ∧ p = done ++ tail ∧
      (tail = [] ∧ ReadsLog (P.codec cfg I m i).dec p ((recs.take k).map Prod.snd) (.ok ()) [] ∨
        tail ≠ [] ∧ (∃ x q, recs[k]? = some x ∧ x.1.bytes cfg = .ok (tail ++ q) ∧ q ≠ []) ∧
          ∃ e, (e = .io ∨ e = .deserialize) ∧
            ReadsLog (P.codec cfg I m i).dec p ((recs.take k).map Prod.snd) (.err e) tail) :=
  log_cut (read := (P.codec cfg I m i).dec) (E := fun e => e = .io ∨ e = .deserialize) hk recs (by
    intro x hx b hb
    refine ⟨(h x hx).dec cfg P I hb, fun p q hpq hq => ?_⟩
    rcases C92_truncated_kind cfg P I m i x.2 p q [] hq (by rw [← hpq]; exact (h x hx).dec cfg P I hb []) with h | h
    · exact ⟨_, .inl rfl, h⟩
    · exact ⟨_, .inr rfl, h⟩) p q hl

/-- C120: passing over the records finds their number and the place to cut, for all programs, whether or not the
records can be migrated.  Missing: what is missing from `C74_nested_migration_partial`. -/
theorem C120_count_partial (m : Nat) (i : ι) (hk : ∀ X, P.kind i ≠ .foreign X) (recs : List (Record P i))
    (h : ∀ x ∈ recs, P.Readable cfg x.rev ∧ (∀ t k, x.impls.cap t k = true → I.cap t k = true) ∧ x.depth ≤ m ∧
      ((P.asOf x.rev).codec cfg x.impls x.depth i).valid x.value) (p q : Bytes)
    (hl : logBytes cfg recs = .ok (p ++ q)) :
    ∃ k done tail, k ≤ recs.length ∧ logBytes cfg (recs.take k) = .ok done ∧ p = done ++ tail ∧
      (tail = [] ∧ ReadsLog (P.codec cfg I m i).skip p (List.replicate k ()) (.ok ()) [] ∨
        tail ≠ [] ∧ (∃ x q, recs[k]? = some x ∧ x.bytes cfg = .ok (tail ++ q) ∧ q ≠ []) ∧
          ReadsLog (P.codec cfg I m i).skip p (List.replicate k ()) (.err .io) tail) := by
  have hm : (recs.map fun x => (x, ())).map Prod.fst = recs := by simp [Function.comp_def]
  obtain ⟨k, done, tail, h1, h2, h3, h4⟩ := log_cut (cfg := cfg) (read := (P.codec cfg I m i).skip) (E := (· = .io)) hk
    (recs.map fun x => (x, ())) (by
      intro x hx b hb
      obtain ⟨y, hy, rfl⟩ := List.mem_map.1 hx
      obtain ⟨a1, a2, a3, a4⟩ := h y hy
      have key := fun t =>
        (C74_nested_migration_partial cfg P y.impls I y.rev a1 a2 y.depth m a3 i y.value b a4 hb t).2.1
      refine ⟨key, fun p q hpq hq => ⟨.io, rfl, ?_⟩⟩
      exact C92_truncated_skip cfg P I m i p q [] hq (by rw [← hpq]; exact key [])) p q (by rw [hm]; exact hl)
  rw [List.length_map] at h1
  rw [← List.map_take] at h2 h4
  have e1 : ((recs.take k).map fun x => (x, ())).map Prod.fst = recs.take k := by simp [Function.comp_def]
  have e2 : ((recs.take k).map fun x => (x, ())).map Prod.snd = List.replicate k () := by
    rw [List.map_map, List.eq_replicate_iff]
    exact ⟨by simp [h1], fun _ _ => rfl⟩
  rw [e1] at h2
  rw [e2] at h4
  refine ⟨k, done, tail, h1, h2, h3, h4.imp id ?_⟩
  rintro ⟨a, ⟨x, q, hx, hq⟩, e, rfl, c⟩
  refine ⟨a, ?_, c⟩
  rw [List.getElem?_map] at hx
  obtain ⟨y, hy, rfl⟩ := Option.map_eq_some_iff.1 hx
  exact ⟨y, q, hy, hq⟩

/-- C120: what was cut can be dropped and the log carried on: after the complete records `done` the records appended
later, by this version or another, are read as well. -/
theorem C120_resume_partial (m : Nat) (i : ι) (hk : ∀ X, P.kind i ≠ .foreign X)
    (recs more : List (Record P i × Values P.kind m i)) (h : ∀ x ∈ recs ++ more, x.1.ReadAs cfg I m x.2)
    (done b : Bytes) (hd : logBytes cfg (recs.map Prod.fst) = .ok done)
    (hb : logBytes cfg (more.map Prod.fst) = .ok b) :
    ReadsLog (P.codec cfg I m i).dec (done ++ b) (recs.map Prod.snd ++ more.map Prod.snd) (.ok ()) [] := by
  have key : ∀ (xs : List (Record P i × Values P.kind m i)) (ys : Bytes) (ws : List _) (z : Bytes),
      (∀ x ∈ xs, x.1.ReadAs cfg I m x.2) → logBytes cfg (xs.map Prod.fst) = .ok ys →
      ReadsLog (P.codec cfg I m i).dec z ws (.ok ()) [] →
      ReadsLog (P.codec cfg I m i).dec (ys ++ z) (xs.map Prod.snd ++ ws) (.ok ()) [] := by
    intro xs
    induction xs with
    | nil => intro ys ws z _ he hr; cases he; exact hr
    | cons x xs ih =>
      intro ys ws z h he hr
      obtain ⟨c, hc, he⟩ := Res.bind_eq_ok.1 (show (do let b ← x.1.bytes cfg; let bs ← logBytes cfg (xs.map Prod.fst); pure (b ++ bs)) = .ok ys from he)
      obtain ⟨cs, hcs, he⟩ := Res.bind_eq_ok.1 he
      cases he
      rw [List.append_assoc]
      exact .next (fun h0 => x.1.bytes_ne_nil hk hc (List.append_eq_nil_iff.1 h0).1) ((h x (.head _)).dec cfg P I hc _)
        (ih cs ws z (fun y hy => h y (.tail _ hy)) hcs hr)
  have h2 := key more b [] [] (fun x hx => h x (List.mem_append.2 (.inr hx))) hb .atEnd
  rw [List.append_nil, List.append_nil] at h2
  exact key recs done _ b (fun x hx => h x (List.mem_append.2 (.inl hx))) hd h2

end

/-! ### Two records of a tree, by the first version and by the second -/

/-- `Tree` at revision 2, `Doc` as ever. -/
def demoCurrent : DemoType → Nat
  | .tree => 2
  | .doc => 1

theorem demoTreeNew_valid_asOf : ((demoProgram.asOf demoCurrent).codec .default demoImpls 3 .tree).valid demoTreeNew := by
  refine ⟨1, _, mem_variantArms.2 ⟨.tail _ (.head _), rfl, rfl⟩, rfl, ⟨⟨_, rfl, ?_⟩, rfl⟩, fun h => by cases h⟩
  refine ⟨by decide, fun _ => rfl, forall_mem_pair ?_ ?_⟩
  · exact ⟨0, _, mem_variantArms.2 ⟨.head _, rfl, rfl⟩, rfl,
      ⟨⟨_, rfl, trivial⟩, ⟨_, rfl, by decide, fun h => absurd rfl h⟩, rfl⟩, fun h => by cases h⟩
  · exact ⟨1, _, mem_variantArms.2 ⟨.tail _ (.head _), rfl, rfl⟩, rfl,
      ⟨⟨_, rfl, by decide, fun h => absurd rfl h, fun a ha => by cases ha⟩, rfl⟩, fun h => by cases h⟩

/-- `demoTree` written when `Tree` was at revision 1, and `demoTreeNew` written now; read as `demoTreeNew` both. -/
def demoLog : List (Record demoProgram .tree × Values demoProgram.kind 3 .tree) :=
  [(⟨demoOld, demoImpls, 3, demoTree⟩, demoTreeNew), (⟨demoCurrent, demoImpls, 3, demoTreeNew⟩, demoTreeNew)]

theorem demoLog_readAs : ∀ x ∈ demoLog, x.1.ReadAs .default demoImpls 3 x.2 :=
  forall_mem_pair ⟨demoProgram_readable _ (.inl rfl) rfl, fun _ _ h => h, demoTree_valid, Nat.le_refl 3, rfl⟩
    ⟨demoProgram_readable _ (.inr rfl) rfl, fun _ _ h => h, demoTreeNew_valid_asOf, Nat.le_refl 3, rfl⟩

theorem demoLog_bytes : logBytes .default (demoLog.map Prod.fst) =
    .ok ([1, 1, 2, 1, 0, 5, 1, 1, 0] ++ [2, 1, 2, 2, 0, 5, 0, 2, 1, 0]) := rfl

/-- `C120` applies to this log cut anywhere. -/
example (p q : Bytes) (hl : logBytes .default (demoLog.map Prod.fst) = .ok (p ++ q)) : ∃ k e tail,
    ReadsLog (demoProgram.codec .default demoImpls 3 .tree).dec p ((demoLog.take k).map Prod.snd) e tail := by
  obtain ⟨k, _, tail, _, _, _, h | h⟩ := C120_recover_partial .default demoProgram demoImpls demoProgram_plainErrors 3 .tree
    (fun _ => nofun) demoLog demoLog_readAs p q hl
  · exact ⟨k, _, _, h.2⟩
  · exact ⟨k, _, _, h.2.2⟩

/-- Cut inside the second record: one tree is read, and five bytes are left. -/
example : ReadsLog (demoProgram.codec .default demoImpls 3 .tree).dec ([1, 1, 2, 1, 0, 5, 1, 1, 0] ++ [2, 1, 2, 2, 0])
    [demoTreeNew] (.err .io) [2, 1, 2, 2, 0] := by
  refine .next nofun ((demoLog_readAs _ (.head _)).dec .default demoProgram demoImpls rfl _) (.failed nofun ?_)
  exact C92_truncated_partial .default demoProgram demoImpls demoProgram_plainErrors 3 .tree demoTreeNew [2, 1, 2, 2, 0]
    [5, 0, 2, 1, 0] [] nofun ((demoLog_readAs _ (.tail _ (.head _))).dec .default demoProgram demoImpls rfl [])

/-- Carried on after the first record. -/
example : ReadsLog (demoProgram.codec .default demoImpls 3 .tree).dec
    ([1, 1, 2, 1, 0, 5, 1, 1, 0] ++ [2, 1, 2, 2, 0, 5, 0, 2, 1, 0]) [demoTreeNew, demoTreeNew] (.ok ()) [] :=
  C120_resume_partial .default demoProgram demoImpls 3 .tree (fun _ => nofun) (demoLog.take 1) (demoLog.drop 1)
    (fun x hx => demoLog_readAs x hx) _ _ rfl rfl

/-- The full statement is false for a record with a `Result`, which is not told from a damaged one: `C92_truncated_false`. -/
theorem C120_recover_false :
    ReadsLog (ioProgram.codec .default ioImpls 1 .tried).dec [1, 0] [] (.err .deserialize) [1, 0] :=
  .failed nofun C92_truncated_false.1

end Revision
