import Verif.Model.Revision
import Verif.Proofs.Exchange

/-! # The revision a type reports and the one its data begins with -/

namespace Revision

variable {ι : Type} {K : ι → Kind}

/-- What is read begins with a revision of the history. -/
theorem dispatchRevision_header {cfg : Cfg} {h : List Entry} (hv : ValidHistory h) {arm : Entry → Rd α} {s : Bytes}
    {x : α × Bytes} (hx : dispatchRevision cfg h arm s = .ok x) :
    ∃ k t, readU16 cfg s = .ok (k, t) ∧ 1 ≤ k ∧ k ≤ latest h := by
  unfold dispatchRevision at hx
  obtain ⟨k, t, hk, hr⟩ := Rd.bind_ok.1 hx
  refine ⟨k, t, hk, ?_⟩
  rw [hv.latest_eq]
  by_cases ho : k = 0 ∨ h.length < k
  · simp only [hv.find_none ho] at hr
    cases hr
  · omega

theorem Rd.discard_eq_ok {m : Rd α} {s t : Bytes} (h : m.discard s = .ok ((), t)) : ∃ a, m s = .ok (a, t) := by
  unfold Rd.discard at h
  obtain ⟨a, u, ha, hu⟩ := Rd.bind_ok.1 h
  exact ⟨a, by rw [ha]; cases hu; rfl⟩

section
variable {n : Nat} {cfg : Cfg} {I : Impls K} [DecidableEq ι] {c : (i : ι) → Codec (Values K n i)}

theorem Body.header {hist : List Entry} (hh : ValidHistory hist) : {kd : Kind} → (body : Body K kd) →
    kd.derived = true → (s : Bytes) →
    ((∃ x, (body.codec cfg I n c hist).dec s = .ok x) ∨ (∃ x, (body.codec cfg I n c hist).skip s = .ok x) ∨
      (∃ x, (body.codec cfg I n c hist).skipS s = .ok x) ∨ ∃ x, (body.codec cfg I n c hist).check s = .ok x) →
    ∃ k t, readU16 cfg s = .ok (k, t) ∧ 1 ≤ k ∧ k ≤ latest hist
  | _, .struct fs, _, s, h => by
    rcases h with ⟨x, h⟩ | ⟨x, h⟩ | ⟨x, h⟩ | ⟨x, h⟩
    · exact dispatchRevision_header hh h
    · exact dispatchRevision_header hh h
    · exact dispatchRevision_header hh h
    · obtain ⟨a, ha⟩ := Rd.discard_eq_ok h
      exact dispatchRevision_header hh ha
  | _, .enum vs, _, s, h => by
    rcases h with ⟨x, h⟩ | ⟨x, h⟩ | ⟨x, h⟩ | ⟨x, h⟩
    · exact dispatchRevision_header hh h
    · exact dispatchRevision_header hh h
    · exact dispatchRevision_header hh h
    · obtain ⟨a, ha⟩ := Rd.discard_eq_ok h
      exact dispatchRevision_header hh ha
  | _, .foreign _, h, _, _ => nomatch h

end

theorem Program.asOf_revision {P : Program ι} (hh : ∀ i, ValidHistory (P.history i)) {s : ι → Nat} {i : ι}
    (hs : 1 ≤ s i ∧ s i ≤ (P.history i).length) : (P.asOf s).revision i = s i := by
  have := ((hh i).take hs.1 hs.2).latest_eq
  rwa [List.length_take, Nat.min_eq_left hs.2] at this

end Revision
