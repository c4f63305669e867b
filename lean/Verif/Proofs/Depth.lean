import Verif.Spec.Depth
import Verif.Proofs.AllocProgram
import Verif.Proofs.ProgramLift

/-! Helper lemmas: readers at two depths do the same on short inputs. -/

namespace Revision

/-- On inputs shorter than `L`, `n` does what `m` does, with `f` applied to the result, and neither gives back
more than it got. -/
def Rd.Maps (L : Nat) (f : α → β) (m : Rd α) (n : Rd β) : Prop :=
  ∀ s, s.length < L → n s = (m s).mapFst f ∧ ∀ a r, m s = .ok (a, r) → r.length ≤ s.length

namespace Rd.Maps

variable {L : Nat}

theorem refl {m : Rd α} (h : m.Eats 0) : Maps L (fun a => a) m m := by
  intro s _
  refine ⟨?_, fun a r e => h s a r e⟩
  cases m s <;> rfl

theorem ret {f : α → β} (a : α) : Maps L f (Pure.pure a) (Pure.pure (f a)) := by
  intro s _
  refine ⟨rfl, fun a r e => ?_⟩
  cases e; exact Nat.le_refl _

theorem fail {f : α → β} (e : Err) : Maps L f (Rd.fail e) (Rd.fail e) := fun _ _ => ⟨rfl, nofun⟩

theorem panic {f : α → β} : Maps L f Rd.panic Rd.panic := fun _ _ => ⟨rfl, nofun⟩

theorem seq {f : α → β} {g : γ → δ} {m : Rd α} {n : Rd β} {k : α → Rd γ} {l : β → Rd δ} (h : Maps L f m n)
    (hk : ∀ a, Maps L g (k a) (l (f a))) : Maps L g (m >>= k) (n >>= l) := by
  intro s hs
  obtain ⟨h1, h2⟩ := h s hs
  simp only [Rd.bind_run, h1]
  cases hm : m s with
  | ok p =>
    have := h2 p.1 p.2 hm
    obtain ⟨h3, h4⟩ := hk p.1 p.2 (by omega)
    exact ⟨h3, fun a r e => Nat.le_trans (h4 a r e) this⟩
  | err e => exact ⟨rfl, nofun⟩
  | panic => exact ⟨rfl, nofun⟩

/-- After a read that both share. -/
theorem same {g : γ → δ} {m : Rd α} {k : α → Rd γ} {l : α → Rd δ} (h : m.Eats 0)
    (hk : ∀ a, Maps L g (k a) (l a)) : Maps L g (m >>= k) (m >>= l) := seq (refl h) hk

/-- After a read that both share and whose result is known to be short. -/
theorem same' {g : γ → δ} {m : Rd α} {k : α → Rd γ} {l : α → Rd δ} (h : m.Eats 0)
    (hk : ∀ s a r, s.length < L → m s = .ok (a, r) → Maps L g (k a) (l a)) : Maps L g (m >>= k) (m >>= l) := by
  intro s hs
  simp only [Rd.bind_run]
  cases hm : m s with
  | ok p =>
    have := h s p.1 p.2 hm
    obtain ⟨h3, h4⟩ := hk s p.1 p.2 hs hm p.2 (by omega)
    exact ⟨h3, fun a r e => by have := h4 a r e; omega⟩
  | err e => exact ⟨rfl, nofun⟩
  | panic => exact ⟨rfl, nofun⟩

theorem branch {f : α → β} {c : Prop} [Decidable c] {m n : Rd α} {m' n' : Rd β} (h : Maps L f m m')
    (h' : Maps L f n n') : Maps L f (if c then m else n) (if c then m' else n') := by
  split <;> assumption

theorem lift {f : α → β} {x : Res α} {y : Res β} (h : y = f <$> x) : Maps L f (Rd.lift x) (Rd.lift y) := by
  subst h
  intro s _
  cases x with
  | ok a => exact ret a s (by assumption)
  | err e => exact ⟨rfl, nofun⟩
  | panic => exact ⟨rfl, nofun⟩

theorem mapErr {f : α → β} {m : Rd α} {n : Rd β} {g} (h : Maps L f m n) : Maps L f (m.mapErr g) (n.mapErr g) := by
  intro s hs
  obtain ⟨h1, h2⟩ := h s hs
  simp only [Rd.mapErr, h1]
  cases hm : m s with
  | ok p =>
    refine ⟨rfl, fun a r e => h2 a r ?_⟩
    rw [hm]; exact e
  | err e => exact ⟨rfl, nofun⟩
  | panic => exact ⟨rfl, nofun⟩

theorem discard {f : α → β} {m : Rd α} {n : Rd β} (h : Maps L f m n) :
    Maps L (fun u => u) m.discard n.discard := seq h fun _ => ret ()

theorem readN {f : α → β} {m : Rd α} {n : Rd β} (h : Maps L f m n) :
    ∀ k, Maps L (List.map f) (Rd.readN k m) (Rd.readN k n)
  | 0 => ret []
  | k + 1 => seq h fun a => seq (readN h k) fun as => ret (a :: as)

theorem repeatN {m n : Rd Unit} (h : Maps L (fun u => u) m n) :
    ∀ k, Maps L (fun u => u) (Rd.repeatN k m) (Rd.repeatN k n)
  | 0 => ret ()
  | k + 1 => seq h fun _ => repeatN h k

theorem within {f : α → β} {m : Rd α} {n : Rd β} (h : Maps L f m n) {b : Bytes} (hb : b.length < L) :
    n.within b = f <$> m.within b := by
  simp only [Rd.within, (h b hb).1]
  cases m b <;> rfl

theorem mono {f : α → β} {m : Rd α} {n : Rd β} {L' : Nat} (h : Maps L f m n) (hl : L' ≤ L) : Maps L' f m n :=
  fun s hs => h s (by omega)

end Rd.Maps

/-- The four readers of two codecs do the same on short inputs. -/
structure Codec.Maps (L : Nat) (f : α → β) (c : Codec α) (d : Codec β) : Prop where
  dec : c.dec.Maps L f d.dec
  skip : c.skip.Maps L (fun u => u) d.skip
  skipS : c.skipS.Maps L (fun u => u) d.skipS
  check : c.check.Maps L (fun u => u) d.check

/-- Two codecs skip alike on short inputs. -/
structure Codec.SkipMaps (L : Nat) (c : Codec α) (d : Codec β) : Prop where
  skip : c.skip.Maps L (fun u => u) d.skip
  skipS : c.skipS.Maps L (fun u => u) d.skipS

section
open Rd.Maps
variable {L : Nat} {f : α → β} {c : Codec α} {d : Codec β}

theorem Codec.Maps.skips (h : c.Maps L f d) : c.SkipMaps L d := ⟨h.skip, h.skipS⟩

open Rd.Eats in
theorem discard_eats {m : Rd α} (h : m.Eats 0) : m.discard.Eats 0 := bind0 h fun _ => pure _

theorem Codec.Maps.refl {c : Codec α} (h1 : c.dec.Eats 0) (h2 : c.skip.Eats 0) (h3 : c.skipS.Eats 0)
    (h4 : c.check.Eats 0) : c.Maps L (fun a => a) c :=
  ⟨Rd.Maps.refl h1, Rd.Maps.refl h2, Rd.Maps.refl h3, Rd.Maps.refl h4⟩

theorem Codec.Maps.mirror {valid enc} {dec : Rd α} (h : dec.Eats 0) :
    (Codec.mirror valid enc dec).Maps L (fun a => a) (Codec.mirror valid enc dec) :=
  .refl h (discard_eats h) (discard_eats h) (discard_eats h)

theorem consume_eats (n : Nat) : (Rd.consume n).Eats 0 := by
  intro s b r h
  simp only [Rd.consume] at h
  split at h
  · cases h
  · cases h; simp

theorem advance_eats0 (n : Nat) : (Rd.advance n).Eats 0 := (Rd.Eats.advance n).weaken (by omega)
theorem readExact_eats0 (n : Nat) : (Rd.readExact n).Eats 0 := (Rd.Eats.readExact n).weaken (by omega)
theorem readLen_eats0 (cfg : Cfg) : (readLen cfg).Eats 0 := (readLen_eats cfg).weaken (by omega)
theorem readU32_eats0 (cfg : Cfg) : (readU32 cfg).Eats 0 := (readU32_eats cfg).weaken (by omega)
theorem readU16_eats0 (cfg : Cfg) : (readU16 cfg).Eats 0 := (readU16_eats cfg).weaken (by omega)
theorem readByte_eats0 : Rd.readByte.Eats 0 := Rd.Eats.readByte.weaken (by omega)
theorem readVarint_eats0 : readVarint.Eats 0 := readVarint_eats.weaken (by omega)
theorem decInt_eats0 (cfg : Cfg) (k : IntTy) : (decInt cfg k).Eats 0 := (decInt_eats cfg k).weaken (by omega)

open Rd.Eats in
theorem skipBytes_eats (cfg : Cfg) : (skipBytes cfg).Eats 0 := bind0 (readLen_eats0 cfg) fun _ => advance_eats0 _
open Rd.Eats in
theorem skipBytesS_eats (cfg : Cfg) : (skipBytesS cfg).Eats 0 := bind0 (readLen_eats0 cfg) fun _ => consume_eats _

theorem vecC_maps (cfg : Cfg) (cap : Nat → Bool) (h : c.Maps L f d) :
    (vecC cfg cap c).Maps L (List.map f) (vecC cfg cap d) := by
  have key : (vecC cfg cap c).dec.Maps L (List.map f) (vecC cfg cap d).dec :=
    same (readLen_eats0 cfg) fun n => branch (ret []) (same (Rd.Eats.alloc _) fun _ => readN h.dec n)
  exact ⟨key, same (readLen_eats0 cfg) fun n => repeatN h.skip n, same (readLen_eats0 cfg) fun n => repeatN h.skipS n,
    key.discard⟩

theorem collC_maps (cfg : Cfg) (cap : Nat → Bool) {inv inv' build build'} (h : c.Maps L f d)
    (hb : ∀ l, build' (l.map f) = (build l).map f) :
    (collC cfg cap c inv build).Maps L (List.map f) (collC cfg cap d inv' build') := by
  have key : (readColl cfg cap c.dec build).Maps L (List.map f) (readColl cfg cap d.dec build') :=
    same (readLen_eats0 cfg) fun n => same (Rd.Eats.alloc _) fun _ => seq (readN h.dec n) fun l => by
      rw [hb]; exact ret _
  exact ⟨key, same (readLen_eats0 cfg) fun n => repeatN h.skip n, same (readLen_eats0 cfg) fun n => repeatN h.skipS n,
    key.discard⟩

theorem pairC_maps {a : Codec α} {b : Codec β} {a' : Codec γ} {b' : Codec δ} {f : α → γ} {g : β → δ}
    (ha : a.Maps L f a') (hb : b.Maps L g b') :
    (pairC a b).Maps L (fun p => (f p.1, g p.2)) (pairC a' b') :=
  ⟨seq ha.dec fun x => seq hb.dec fun y => ret (x, y), seq ha.skip fun _ => hb.skip,
    seq ha.skipS fun _ => hb.skipS, seq ha.check fun _ => hb.check⟩

theorem arrayC_maps (n : Nat) (h : c.Maps L f d) : (arrayC n c).Maps L (List.map f) (arrayC n d) :=
  ⟨readN h.dec n, repeatN h.skip n, repeatN h.skipS n, repeatN h.check n⟩

theorem optionC_maps (cfg : Cfg) (h : c.Maps L f d) : (optionC cfg c).Maps L (Option.map f) (optionC cfg d) := by
  have key : (optionC cfg c).dec.Maps L (Option.map f) (optionC cfg d).dec :=
    same (decInt_eats0 cfg _) fun _ => branch (ret none) (branch (seq h.dec fun a => ret (some a)) (fail _))
  exact ⟨key, same (decInt_eats0 cfg _) fun _ => branch (ret _) (branch h.skip (fail _)),
    same (decInt_eats0 cfg _) fun _ => branch (ret _) (branch h.skipS (fail _)), key.discard⟩

/-! ### Building the collections -/

theorem foldl_map_comm {g : α → β} {ins : List α → α → List α} {ins' : List β → β → List β}
    (h : ∀ l a, ins' (l.map g) (g a) = (ins l a).map g) : ∀ (l acc : List α),
    (l.map g).foldl ins' (acc.map g) = (l.foldl ins acc).map g
  | [], _ => rfl
  | a :: l, acc => by
    simp only [List.map_cons, List.foldl_cons, h]
    exact foldl_map_comm h l _

theorem hashInsert_map {eq : κ → κ → Bool} {eq' : κ' → κ' → Bool} {f : κ → κ'} {g : ν → ν'}
    (h : ∀ a b, eq' (f a) (f b) = eq a b) (l : List (κ × ν)) (p : κ × ν) :
    hashInsert eq' (l.map fun p => (f p.1, g p.2)) (f p.1, g p.2) =
      (hashInsert eq l p).map fun p => (f p.1, g p.2) := by
  unfold hashInsert
  simp only [List.any_map, Function.comp_def, h]
  split
  · simp only [List.map_map]
    refine List.map_congr_left fun e _ => ?_
    simp only [Function.comp, h]
    split <;> rfl
  · simp

theorem hashSetInsert_map {eq : κ → κ → Bool} {eq' : κ' → κ' → Bool} {f : κ → κ'}
    (h : ∀ a b, eq' (f a) (f b) = eq a b) (l : List κ) (k : κ) :
    hashSetInsert eq' (l.map f) (f k) = (hashSetInsert eq l k).map f := by
  unfold hashSetInsert
  simp only [List.any_map, Function.comp_def, h]
  split <;> simp

theorem dedupLast_map {cmp : κ → κ → Ordering} {cmp' : κ' → κ' → Ordering} {key : α → κ} {key' : β → κ'} {g : α → β}
    (h : ∀ a b, cmp' (key' (g a)) (key' (g b)) = cmp (key a) (key b)) :
    ∀ l : List α, dedupLast cmp' key' (l.map g) = (dedupLast cmp key l).map g
  | [] => rfl
  | [_] => rfl
  | a :: b :: l => by
    have ih := dedupLast_map h (b :: l)
    simp only [List.map_cons] at ih
    simp only [List.map_cons, dedupLast, h, ih]
    split
    · rfl
    · simp

theorem btreeBuild_map {cmp : κ → κ → Ordering} {cmp' : κ' → κ' → Ordering} {key : α → κ} {key' : β → κ'} {g : α → β}
    (h : ∀ a b, cmp' (key' (g a)) (key' (g b)) = cmp (key a) (key b)) (l : List α) :
    btreeBuild cmp' key' (l.map g) = (btreeBuild cmp key l).map g := by
  unfold btreeBuild
  rw [← dedupLast_map h, List.map_mergeSort]
  intro a _ b _
  rw [h]

theorem siftUp_map {cmp : α → α → Ordering} {cmp' : β → β → Ordering} {g : α → β}
    (h : ∀ a b, cmp' (g a) (g b) = cmp a b) (l : List α) (pos : Nat) :
    siftUp cmp' (l.map g) pos = (siftUp cmp l pos).map g := by
  induction pos using Nat.strongRecOn generalizing l with
  | _ pos ih =>
    rw [siftUp, siftUp]
    by_cases hp : pos = 0
    · simp [hp]
    · simp only [hp, dite_false, List.getElem?_map]
      cases l[pos]? with
      | none => rfl
      | some x =>
        cases l[(pos - 1) / 2]? with
        | none => rfl
        | some p =>
          simp only [Option.map_some, h]
          split
          · rfl
          · rw [← ih ((pos - 1) / 2) (by omega), List.map_set, List.map_set]

theorem heapPush_map {cmp : α → α → Ordering} {cmp' : β → β → Ordering} {g : α → β}
    (h : ∀ a b, cmp' (g a) (g b) = cmp a b) (l : List α) (x : α) :
    heapPush cmp' (l.map g) (g x) = (heapPush cmp l x).map g := by
  unfold heapPush
  rw [← siftUp_map h]
  simp


theorem btreeInsert_map {cmp : κ → κ → Ordering} {cmp' : κ' → κ' → Ordering} {f : κ → κ'} {g : ν → ν'}
    (h : ∀ a b, cmp' (f a) (f b) = cmp a b) : ∀ (l : List (κ × ν)) (p : κ × ν),
    btreeInsert cmp' (l.map fun p => (f p.1, g p.2)) (f p.1, g p.2) =
      (btreeInsert cmp l p).map fun p => (f p.1, g p.2)
  | [], _ => rfl
  | e :: l, p => by
    simp only [List.map_cons, btreeInsert, h]
    cases cmp p.1 e.1 with
    | lt => rfl
    | eq => rfl
    | gt => simp only [btreeInsert_map h l p, List.map_cons]

/-! ### Indexed collections -/

theorem readIndexedSeq_maps (cap : Nat → Bool) {m : Rd α} {n : Rd β} (h : m.Maps L f n) :
    (readIndexedSeq cap m).Maps L (List.map f) (readIndexedSeq cap n) :=
  same readByte_eats0 fun _ => same readVarint_eats0 fun k =>
    branch (same (Rd.Eats.alloc _) fun _ => readN h k) (same (Rd.Eats.lift _) fun _ =>
      same (advance_eats0 _) fun _ => same (Rd.Eats.alloc _) fun _ => readN h k)

theorem readIndexedMap_maps (pre capK capV : Nat → Bool) {k : Rd κ} {k' : Rd κ'} {v : Rd ν} {v' : Rd ν'} {f : κ → κ'}
    {g : ν → ν'} {build build'} (hk : k.Maps L f k') (hv : v.Maps L g v')
    (hb : ∀ l, build' (l.map fun p => (f p.1, g p.2)) = (build l).map fun p => (f p.1, g p.2)) :
    (readIndexedMap pre capK capV k v build).Maps L (List.map fun p => (f p.1, g p.2))
      (readIndexedMap pre capK capV k' v' build') := by
  have fin : ∀ l : List (κ × ν), (Pure.pure (build l) : Rd _).Maps L (List.map fun p => (f p.1, g p.2))
      (Pure.pure (build' (l.map fun p => (f p.1, g p.2)))) := fun l => by rw [hb]; exact ret _
  refine same readByte_eats0 fun _ => same readVarint_eats0 fun n => same (Rd.Eats.alloc _) fun _ => branch ?_ ?_
  · exact seq (readN (seq hk fun a => seq hv fun b => ret (f := fun p => (f p.1, g p.2)) (a, b)) n) fin
  · exact same (Rd.Eats.lift _) fun _ => same (Rd.Eats.lift _) fun _ => same (advance_eats0 _) fun _ =>
      same (Rd.Eats.alloc _) fun _ => seq (readN hk n) fun ks => same (Rd.Eats.alloc _) fun _ =>
        seq (readN hv n) fun vs => by
          have : (ks.map f).zip (vs.map g) = (ks.zip vs).map fun p => (f p.1, g p.2) := by
            rw [List.zip_map]; rfl
          rw [this]
          exact fin _

theorem skipIndexedMap_maps {k k' v v' : Rd Unit} (hk : k.Maps L (fun u => u) k') (hv : v.Maps L (fun u => u) v') :
    (skipIndexedMap k v).Maps L (fun u => u) (skipIndexedMap k' v') :=
  same readByte_eats0 fun _ => same readVarint_eats0 fun _ =>
    branch (repeatN (seq hk fun _ => hv) _) (Rd.Maps.refl (.bind0 (.lift _) fun _ => .bind0 (advance_eats0 _) fun _ =>
      .bind0 (readExact_eats0 _) fun _ => advance_eats0 _))

theorem peek_eats (n : Nat) : (Rd.peek n).Eats 0 := by
  intro s b r h
  simp only [Rd.peek] at h
  split at h
  · cases h; simp
  · cases h

theorem skipIndexedSeq_maps {c c' : Rd Unit} (h : c.Maps L (fun u => u) c') :
    (skipIndexedSeq c).Maps L (fun u => u) (skipIndexedSeq c') :=
  same readByte_eats0 fun _ => same readVarint_eats0 fun _ => branch (repeatN h _) (branch (ret ())
    (same (Rd.Eats.lift _) fun _ => same (peek_eats _) fun _ => same (Rd.Eats.lift _) fun _ =>
      same (advance_eats0 _) fun _ => same (advance_eats0 _) fun _ => h))

end

/-! ### The supported types -/

section
open Rd.Maps
variable {ι : Type} {E E' : Env ι} {L : Nat}

/-- Two environments that differ only in the further types, which do the same on short inputs. -/
structure Env.Maps (L : Nat) (E E' : Env ι) (f : (i : ι) → E.X i → E'.X i) : Prop where
  ext : ∀ i, (E.extC i).Maps L (f i) (E'.extC i)
  cap : E'.cap = E.cap
  cmp : ∀ t a b, E'.cmp t (t.map f a) (t.map f b) = E.cmp t a b
  eq : ∀ t a b, E'.eq t (t.map f a) (t.map f b) = E.eq t a b

variable {f : (i : ι) → E.X i → E'.X i}

open Rd.Eats in
theorem bulkC_maps (cfg : Cfg) (cap : Nat → Bool) (W w : Nat) :
    (bulkC cfg cap W w).Maps L (fun a => a) (bulkC cfg cap W w) := by
  have key : (bulkC cfg cap W w).dec.Eats 0 := bind0 (readLen_eats0 cfg) fun n => ite (pure _)
    (ite (bind0 (alloc _) fun _ => bind0 (readExact_eats0 _) fun _ => pure _) (fail _ _))
  exact .refl key (bind0 (readLen_eats0 cfg) fun n => ite (advance_eats0 _) (fail _ _))
    (bind0 (readLen_eats0 cfg) fun n => ite (consume_eats _) (fail _ _)) (discard_eats key)

open Rd.Eats in
theorem boolsC_maps (cfg : Cfg) (cap : Nat → Bool) :
    (boolsC cfg cap).Maps L (fun a => a) (boolsC cfg cap) := by
  have key : (boolsC cfg cap).dec.Eats 0 := bind0 (readLen_eats0 cfg) fun n => ite (pure _)
    (bind0 (alloc _) fun _ => bind0 (readExact_eats0 _) fun _ => bind0 (alloc _) fun _ => pure _)
  exact .refl key (bind0 (readLen_eats0 cfg) fun n => advance_eats0 _)
    (bind0 (readLen_eats0 cfg) fun n => consume_eats _) (discard_eats key)

theorem vecOf_maps (cfg : Cfg) (h : E.Maps L E' f) (t : Ty ι) {c : Codec (t.denote E.X)} {d : Codec (t.denote E'.X)}
    (hc : c.Maps L (t.map f) d) : (vecOf cfg E t c).Maps L (List.map (t.map f)) (vecOf cfg E' t d) := by
  have hv := vecC_maps cfg (E.cap t) hc
  have e : ∀ {α : Type}, List.map (fun v : α => v) = fun l => l := by
    intro α; funext l; exact List.map_id' l
  cases t
  case bool =>
    simp only [vecOf, h.cap]
    split
    · simp only [Ty.map, e]
      exact boolsC_maps cfg _
    · exact hv
  case int | float | uuid =>
    all_goals
      simp only [vecOf, h.cap]
      split
      · simp only [Ty.map, e]
        exact bulkC_maps cfg _ _ _
      · exact hv
  all_goals
    simp only [vecOf, h.cap]
    exact hv

open Rd.Eats in
theorem systemTimeC_maps (cfg : Cfg) : (systemTimeC cfg).Maps L (fun a => a) (systemTimeC cfg) := by
  have key : (systemTimeC cfg).dec.Eats 0 :=
    bind0 (decInt_eats0 cfg _) fun _ => bind0 (decInt_eats0 cfg _) fun _ =>
      bind0 (lift _) fun _ => ite (pure _) (panic _)
  have skip : (systemTimeC cfg).skip.Eats 0 :=
    bind0 (discard_eats (decInt_eats0 cfg _)) fun _ => discard_eats (decInt_eats0 cfg _)
  exact .refl key skip skip skip

theorem Ty.codec_maps (cfg : Cfg) (h : E.Maps L E' f) (t : Ty ι) :
    (t.codec cfg E).Maps L (t.map f) (t.codec cfg E') := by
  have eats : ∀ t : Ty Empty, (t.codec cfg ⟨Empty.elim, nofun, fun t n => E.cap (.int .u8) n, fun _ _ _ => .eq, fun _ _ _ => true⟩).dec.Eats 0 :=
    fun t => (Ty.codec_eats cfg _ nofun t).weaken (by omega)
  induction t with
  | unit => exact .mirror (eats .unit)
  | bool => exact .mirror (eats .bool)
  | int k => exact .mirror (eats (.int k))
  | float k => exact .mirror (eats (.float k))
  | char => exact .mirror (eats .char)
  | uuid => exact .refl (eats .uuid) (advance_eats0 _) (consume_eats _) (discard_eats (eats .uuid))
  | duration => exact .mirror (eats .duration)
  | notNan k => exact .refl (eats (.notNan k)) (discard_eats (eats (.float k))) (discard_eats (eats (.float k))) (discard_eats (eats (.notNan k)))
  | systemTime => exact systemTimeC_maps cfg
  | string =>
    simp only [Ty.codec, h.cap]
    exact .refl (eats .string) (skipBytes_eats cfg) (skipBytesS_eats cfg) (discard_eats (eats .string))
  | bytes =>
    simp only [Ty.codec, h.cap]
    exact .refl (eats .bytes) (skipBytes_eats cfg) (skipBytesS_eats cfg) (discard_eats (eats .bytes))
  | path =>
    simp only [Ty.codec, h.cap]
    exact .mirror (eats .path)
  | option t ih => exact optionC_maps cfg ih
  | result t e iht ihe =>
    have key : (resultC cfg (t.codec cfg E) (e.codec cfg E)).dec.Maps L ((Ty.result t e).map f)
        (resultC cfg (t.codec cfg E') (e.codec cfg E')).dec :=
      same (readU32_eats0 cfg) fun _ => branch (seq iht.dec.mapErr fun a => ret (α := Except _ _) (.ok a))
        (branch (seq ihe.dec.mapErr fun a => ret (α := Except _ _) (.error a)) (fail _))
    exact ⟨key, same (readU32_eats0 cfg) fun _ => branch iht.skip (branch ihe.skip (fail _)),
      same (readU32_eats0 cfg) fun _ => branch iht.skipS (branch ihe.skipS (fail _)), key.discard⟩
  | bound t ih =>
    have key : (boundC cfg (t.codec cfg E)).dec.Maps L ((Ty.bound t).map f) (boundC cfg (t.codec cfg E')).dec :=
      same (readU32_eats0 cfg) fun _ => branch (ret Bnd.unbounded) (branch (seq ih.dec.mapErr fun a => ret (Bnd.included a))
        (branch (seq ih.dec.mapErr fun a => ret (Bnd.excluded a)) (fail _)))
    exact ⟨key, same (readU32_eats0 cfg) fun _ => branch (ret ()) (branch ih.skip (branch ih.skip (fail _))),
      same (readU32_eats0 cfg) fun _ => branch (ret ()) (branch ih.skipS (branch ih.skipS (fail _))), key.discard⟩
  | wrap t ih => exact ⟨ih.dec, ih.skip, ih.skipS, ih.dec.discard⟩
  | pair s t ihs iht => exact pairC_maps ihs iht
  | array k t ih => exact arrayC_maps k ih
  | vec t ih => exact vecOf_maps cfg h t ih
  | btreeMap k v ihk ihv =>
    simp only [Ty.codec, h.cap]
    exact collC_maps cfg _ (pairC_maps ihk ihv) fun l => btreeBuild_map (fun a b => h.cmp k a.1 b.1) l
  | btreeSet k ih =>
    simp only [Ty.codec, h.cap]
    exact collC_maps cfg _ ih fun l => btreeBuild_map (g := k.map f) (key := id) (key' := id) (fun a b => h.cmp k a b) l
  | hashMap k v ihk ihv =>
    simp only [Ty.codec, h.cap]
    exact collC_maps cfg _ (pairC_maps ihk ihv) fun l => foldl_map_comm (hashInsert_map (h.eq k)) l []
  | hashSet k ih =>
    simp only [Ty.codec, h.cap]
    exact collC_maps cfg _ ih fun l => foldl_map_comm (hashSetInsert_map (h.eq k)) l []
  | binaryHeap t ih =>
    simp only [Ty.codec, h.cap]
    exact collC_maps cfg _ ih fun l => foldl_map_comm (heapPush_map (h.cmp t)) l []
  | vector t ih =>
    simp only [Ty.codec, h.cap]
    exact collC_maps cfg _ ih fun _ => rfl
  | ext i => exact h.ext i

theorem fixedOf_maps (cfg : Cfg) (h : E.Maps L E' f) (t : Ty ι) :
    (fixedOf cfg E t).Maps L (t.map f) (fixedOf cfg E' t) := by
  have key := Ty.codec_maps cfg h t
  cases t <;> try exact key
  rename_i k
  have hr : ∀ n, (fixedC n).Maps L (fun a => a) (fixedC n) := fun n =>
    .refl ((readLE_eats _ _).weaken (by omega)) (discard_eats (readExact_eats0 _)) (discard_eats (readExact_eats0 _))
      (discard_eats (readExact_eats0 _))
  cases k <;> first | exact key | exact hr 4 | exact hr 8 | exact hr 16

theorem bulkOf_maps (cfg : Cfg) (h : E.Maps L E' f) (t : Ty ι) :
    (bulkOf cfg E t).Maps L (t.map f) (bulkOf cfg E' t) := by
  have key := Ty.codec_maps cfg h t
  cases t <;> try exact key
  exact vecOf_maps _ h _ (Ty.codec_maps cfg h _)

theorem indexedOf_maps (cfg : Cfg) (h : E.Maps L E' f) (t : Ty ι) :
    (indexedOf cfg E t).Maps L (t.map f) (indexedOf cfg E' t) := by
  have key := fun t => Ty.codec_maps cfg h t
  cases t <;> try exact key _
  case btreeMap k v =>
    simp only [indexedOf, h.cap]
    have hd := readIndexedMap_maps (fun _ => true) (E.cap k) (E.cap v) (key k).dec (key v).dec
      (foldl_map_comm (btreeInsert_map (h.cmp k)) · [])
    exact ⟨hd, skipIndexedMap_maps (key k).skip (key v).skip, skipIndexedMap_maps (key k).skip (key v).skip, hd.discard⟩
  case hashMap k v =>
    simp only [indexedOf, h.cap]
    have hd := readIndexedMap_maps (E.cap (.pair k v)) (E.cap k) (E.cap v) (key k).dec (key v).dec
      (foldl_map_comm (hashInsert_map (h.eq k)) · [])
    exact ⟨hd, skipIndexedMap_maps (key k).skip (key v).skip, skipIndexedMap_maps (key k).skip (key v).skip, hd.discard⟩
  case vec t =>
    simp only [indexedOf, h.cap]
    have hd := readIndexedSeq_maps (E.cap t) (key t).dec
    exact ⟨hd, skipIndexedSeq_maps (key t).skip, skipIndexedSeq_maps (key t).skip, hd.discard⟩
  case vector t =>
    simp only [indexedOf, h.cap]
    have hd := readIndexedSeq_maps (E.cap t) (key t).dec
    exact ⟨hd, skipIndexedSeq_maps (key t).skip, skipIndexedSeq_maps (key t).skip, hd.discard⟩
  case btreeSet t =>
    simp only [indexedOf, h.cap]
    have hd := readIndexedSeq_maps (E.cap t) (key t).dec
    exact ⟨seq hd fun l => by
      rw [btreeBuild_map (cmp := E.cmp t) (g := t.map f) (key := id) (key' := id) (fun a b => h.cmp t a b)]; exact ret _,
      skipIndexedSeq_maps (key t).skip, skipIndexedSeq_maps (key t).skip, hd.discard⟩
  case hashSet t =>
    simp only [indexedOf, h.cap]
    have hd := readIndexedSeq_maps (E.cap t) (key t).dec
    exact ⟨seq hd fun l => by
      rw [show ([] : List (t.denote E'.X)) = ([] : List (t.denote E.X)).map (t.map f) from rfl,
        foldl_map_comm (hashSetInsert_map (h.eq t))]
      exact ret _,
      skipIndexedSeq_maps (key t).skip, skipIndexedSeq_maps (key t).skip, hd.discard⟩

end

/-! ### Skipping alone -/

section
open Rd.Maps
variable {ι : Type} {E E' : Env ι} {L : Nat}

theorem vecC_skipMaps (cfg : Cfg) (cap : Nat → Bool) {c : Codec α} {d : Codec β} (h : c.SkipMaps L d) :
    (vecC cfg cap c).SkipMaps L (vecC cfg cap d) :=
  ⟨same (readLen_eats0 cfg) fun n => h.skip.repeatN n, same (readLen_eats0 cfg) fun n => h.skipS.repeatN n⟩

theorem collC_skipMaps (cfg : Cfg) (cap : Nat → Bool) {inv inv' build build'} {c : Codec α} {d : Codec β}
    (h : c.SkipMaps L d) : (collC cfg cap c inv build).SkipMaps L (collC cfg cap d inv' build') :=
  ⟨same (readLen_eats0 cfg) fun n => h.skip.repeatN n, same (readLen_eats0 cfg) fun n => h.skipS.repeatN n⟩

theorem pairC_skipMaps {a : Codec α} {b : Codec β} {a' : Codec γ} {b' : Codec δ} (h : a.SkipMaps L a')
    (k : b.SkipMaps L b') : (pairC a b).SkipMaps L (pairC a' b') :=
  ⟨seq h.skip fun _ => k.skip, seq h.skipS fun _ => k.skipS⟩

theorem vecOf_skipMaps (cfg : Cfg) (hcap : E'.cap = E.cap) (t : Ty ι) {c : Codec (t.denote E.X)}
    {d : Codec (t.denote E'.X)} (hc : c.SkipMaps L d) : (vecOf cfg E t c).SkipMaps L (vecOf cfg E' t d) := by
  have hv := vecC_skipMaps cfg (E.cap t) hc
  cases t
  case bool =>
    simp only [vecOf, hcap]
    split
    · exact (boolsC_maps cfg _).skips
    · exact hv
  case int | float | uuid =>
    all_goals
      simp only [vecOf, hcap]
      split
      · exact (bulkC_maps cfg _ _ _).skips
      · exact hv
  all_goals
    simp only [vecOf, hcap]
    exact hv

theorem Ty.codec_skipMaps (cfg : Cfg) (hcap : E'.cap = E.cap) (h : ∀ i, (E.extC i).SkipMaps L (E'.extC i)) (t : Ty ι) :
    (t.codec cfg E).SkipMaps L (t.codec cfg E') := by
  have eats : ∀ t : Ty Empty, (t.codec cfg ⟨Empty.elim, nofun, fun t n => E.cap (.int .u8) n, fun _ _ _ => .eq, fun _ _ _ => true⟩).dec.Eats 0 :=
    fun t => (Ty.codec_eats cfg _ nofun t).weaken (by omega)
  have refl : ∀ {α} {c : Codec α}, c.skip.Eats 0 → c.skipS.Eats 0 → c.SkipMaps L c :=
    fun h k => ⟨Rd.Maps.refl h, Rd.Maps.refl k⟩
  have mirror : ∀ {α} {valid enc} {dec : Rd α}, dec.Eats 0 →
      (Codec.mirror valid enc dec).SkipMaps L (Codec.mirror valid enc dec) := fun h => (Codec.Maps.mirror h).skips
  induction t with
  | unit => exact mirror (eats .unit)
  | bool => exact mirror (eats .bool)
  | int k => exact mirror (eats (.int k))
  | float k => exact mirror (eats (.float k))
  | char => exact mirror (eats .char)
  | uuid => exact refl (advance_eats0 _) (consume_eats _)
  | duration => exact mirror (eats .duration)
  | notNan k => exact refl (discard_eats (eats (.float k))) (discard_eats (eats (.float k)))
  | systemTime => exact (systemTimeC_maps cfg).skips
  | string => simp only [Ty.codec, hcap]; exact refl (skipBytes_eats cfg) (skipBytesS_eats cfg)
  | bytes => simp only [Ty.codec, hcap]; exact refl (skipBytes_eats cfg) (skipBytesS_eats cfg)
  | path =>
    simp only [Ty.codec, hcap]
    exact mirror (eats .path)
  | option t ih =>
    exact ⟨same (decInt_eats0 cfg _) fun _ => branch (ret ()) (branch ih.skip (fail _)),
      same (decInt_eats0 cfg _) fun _ => branch (ret ()) (branch ih.skipS (fail _))⟩
  | result t e iht ihe =>
    exact ⟨same (readU32_eats0 cfg) fun _ => branch iht.skip (branch ihe.skip (fail _)),
      same (readU32_eats0 cfg) fun _ => branch iht.skipS (branch ihe.skipS (fail _))⟩
  | bound t ih =>
    exact ⟨same (readU32_eats0 cfg) fun _ => branch (ret ()) (branch ih.skip (branch ih.skip (fail _))),
      same (readU32_eats0 cfg) fun _ => branch (ret ()) (branch ih.skipS (branch ih.skipS (fail _)))⟩
  | wrap t ih => exact ⟨ih.skip, ih.skipS⟩
  | pair s t ihs iht => exact pairC_skipMaps ihs iht
  | array k t ih => exact ⟨ih.skip.repeatN k, ih.skipS.repeatN k⟩
  | vec t ih => exact vecOf_skipMaps cfg hcap t ih
  | btreeMap k v ihk ihv | hashMap k v ihk ihv =>
    simp only [Ty.codec, hcap]
    exact collC_skipMaps cfg _ (pairC_skipMaps ihk ihv)
  | btreeSet k ih | hashSet k ih | binaryHeap k ih | vector k ih =>
    simp only [Ty.codec, hcap]
    exact collC_skipMaps cfg _ ih
  | ext i => exact h i

theorem fixedOf_skipMaps (cfg : Cfg) (hcap : E'.cap = E.cap) (h : ∀ i, (E.extC i).SkipMaps L (E'.extC i)) (t : Ty ι) :
    (fixedOf cfg E t).SkipMaps L (fixedOf cfg E' t) := by
  have key := Ty.codec_skipMaps cfg hcap h t
  cases t <;> try exact key
  rename_i k
  have hr : ∀ n, (fixedC n).SkipMaps L (fixedC n) := fun n =>
    ⟨Rd.Maps.refl (discard_eats (readExact_eats0 _)), Rd.Maps.refl (discard_eats (readExact_eats0 _))⟩
  cases k <;> first | exact key | exact hr 4 | exact hr 8 | exact hr 16

end

end Revision
