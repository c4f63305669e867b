import Verif.Proofs.WorkDerive
import Verif.Proofs.DepthDerive
import Verif.Spec.Copy

/-! Counting the bytes copied by derived readers. -/

namespace Revision

open Ct.Costs

attribute [local instance] Tariff.copies

/-- What holds of a reader that reads bytes and calls readers of which it holds. -/
structure Ct.Closed (P : {α : Type} → Ct α → Prop) : Prop where
  of : ∀ {α : Type} {m : Rd α}, m.Eats 0 → P (Ct.of m)
  bind : ∀ {α β : Type} {m : Ct α} {f : α → Ct β}, P m → (∀ a, P (f a)) → P (m >>= f)
  mapErr : ∀ {α : Type} {m : Ct α} (f), P m → P (m.mapErr f)

namespace Ct.Closed

variable {P : {α : Type} → Ct α → Prop} (h : Ct.Closed P)
include h

theorem pure (a : α) : P (Pure.pure a : Ct α) := h.of (Rd.Eats.pure a)
theorem tick : P (Ct.tick 0) := h.of (Rd.Eats.pure ())
theorem fail (e : Err) : P (Ct.of (Rd.fail e) : Ct α) := h.of (Rd.Eats.fail e 0)
theorem ite {c : Prop} [Decidable c] {m m' : Ct α} (hm : P m) (hm' : P m') : P (if c then m else m') := by
  split <;> assumption
theorem discard {m : Ct α} (hm : P m) : P m.discard := h.bind hm fun _ => h.pure ()

theorem readN {m : Ct α} (hm : P m) : ∀ k, P (Ct.readN k m)
  | 0 => h.pure _
  | k + 1 => h.bind hm fun _ => h.bind (readN hm k) fun _ => h.pure _

theorem repeatN {m : Ct Unit} (hm : P m) : ∀ k, P (Ct.repeatN k m)
  | 0 => h.pure _
  | k + 1 => h.bind hm fun _ => repeatN hm k

end Ct.Closed

theorem Ct.Closed.costs (R : Nat) : Ct.Closed (fun {_} m => Ct.Costs 0 R 0 false m) where
  of h := .of0 h
  bind h hf := (h.bind hf).weak (by omega)
  mapErr f h := h.mapErr f

/-- `P` of decoding and validating, `Q` of skipping. -/
structure Counted.Has (P Q : {α : Type} → Ct α → Prop) (c : Counted α) : Prop where
  dec : P c.dec
  skip : Q c.skip
  skipS : Q c.skipS
  check : P c.check

/-- No reader gives back more than it was given. -/
structure Codec.Eats0 (c : Codec α) : Prop where
  dec : c.dec.Eats 0
  skip : c.skip.Eats 0
  skipS : c.skipS.Eats 0
  check : c.check.Eats 0

theorem Codec.Weighty.eats0 {c : Codec α} (h : c.Weighty) : c.Eats0 :=
  ⟨Rd.Eats.weaken (k := 1) h.dec (by omega), Rd.Eats.weaken (k := 1) h.skip (by omega), Rd.Eats.weaken (k := 1) h.skipS (by omega),
    Rd.Eats.weaken (k := 1) h.check (by omega)⟩

namespace Counted.Has

variable {P Q : {α : Type} → Ct α → Prop} (hP : Ct.Closed P) (hQ : Ct.Closed Q)
include hP hQ

theorem leaf {c : Codec α} (h : c.Eats0) : (Counted.leaf c).Has P Q :=
  ⟨hP.bind hP.tick fun _ => hP.of h.dec, hQ.bind hQ.tick fun _ => hQ.of h.skip,
    hQ.bind hQ.tick fun _ => hQ.of h.skipS, hP.bind hP.tick fun _ => hP.of h.check⟩

theorem bulk {c : Codec (List α)} (h : c.Eats0) : (Counted.bulk c).Has P Q := by
  have dec : P (Counted.bulk c).dec := hP.bind hP.tick fun _ => hP.bind (hP.of h.dec) fun l => by
    refine hP.bind ?_ fun _ => hP.pure _
    rw [show Tariff.call = 0 from rfl, Nat.zero_mul]
    exact hP.tick
  exact ⟨dec, hQ.bind hQ.tick fun _ => hQ.of h.skip, hQ.bind hQ.tick fun _ => hQ.of h.skipS, hP.discard dec⟩

theorem call {x : Counted α} (h : x.Has P Q) : x.call.Has P Q :=
  ⟨hP.bind hP.tick fun _ => h.dec, hQ.bind hQ.tick fun _ => h.skip,
    hQ.bind hQ.tick fun _ => h.skipS, hP.bind hP.tick fun _ => h.check⟩

theorem both {x : Counted α} {y : Counted β} (h : x.Has P Q) (h' : y.Has P Q) : (x.both y).Has P Q :=
  ⟨hP.bind h.dec fun _ => hP.bind h'.dec fun _ => hP.pure _, hQ.bind h.skip fun _ => h'.skip,
    hQ.bind h.skipS fun _ => h'.skipS, hP.bind h.check fun _ => h'.check⟩

theorem array {x : Counted α} (k : Nat) (h : x.Has P Q) : (x.array k).Has P Q :=
  ⟨hP.readN h.dec k, hQ.repeatN h.skip k, hQ.repeatN h.skipS k, hP.repeatN h.check k⟩

theorem wrap {x : Counted α} (h : x.Has P Q) : x.wrap.Has P Q := ⟨h.dec, h.skip, h.skipS, hP.discard h.dec⟩

theorem option {x : Counted α} (cfg : Cfg) (h : x.Has P Q) : (x.option cfg).Has P Q := by
  have dec : P (x.option cfg).dec := hP.bind (hP.of (decInt_eats0 cfg _)) fun t => hP.ite (hP.pure _)
    (hP.ite (hP.bind h.dec fun _ => hP.pure _) (hP.fail _))
  exact ⟨dec, hQ.bind (hQ.of (decInt_eats0 cfg _)) fun t => hQ.ite (hQ.pure _) (hQ.ite h.skip (hQ.fail _)),
    hQ.bind (hQ.of (decInt_eats0 cfg _)) fun t => hQ.ite (hQ.pure _) (hQ.ite h.skipS (hQ.fail _)), hP.discard dec⟩

theorem result {x : Counted α} {y : Counted β} (cfg : Cfg) (h : x.Has P Q) (h' : y.Has P Q) : (x.result cfg y).Has P Q := by
  have dec : P (x.result cfg y).dec := hP.bind (hP.of (readU32_eats0 cfg)) fun t =>
    hP.ite (hP.bind (hP.mapErr _ h.dec) fun _ => hP.pure _) (hP.ite (hP.bind (hP.mapErr _ h'.dec) fun _ => hP.pure _) (hP.fail _))
  exact ⟨dec, hQ.bind (hQ.of (readU32_eats0 cfg)) fun t => hQ.ite h.skip (hQ.ite h'.skip (hQ.fail _)),
    hQ.bind (hQ.of (readU32_eats0 cfg)) fun t => hQ.ite h.skipS (hQ.ite h'.skipS (hQ.fail _)), hP.discard dec⟩

theorem bound {x : Counted α} (cfg : Cfg) (h : x.Has P Q) : (x.bound cfg).Has P Q := by
  have dec : P (x.bound cfg).dec := hP.bind (hP.of (readU32_eats0 cfg)) fun t => hP.ite (hP.pure _)
    (hP.ite (hP.bind (hP.mapErr _ h.dec) fun _ => hP.pure _) (hP.ite (hP.bind (hP.mapErr _ h.dec) fun _ => hP.pure _) (hP.fail _)))
  exact ⟨dec, hQ.bind (hQ.of (readU32_eats0 cfg)) fun t => hQ.ite (hQ.pure _) (hQ.ite h.skip (hQ.ite h.skip (hQ.fail _))),
    hQ.bind (hQ.of (readU32_eats0 cfg)) fun t => hQ.ite (hQ.pure _) (hQ.ite h.skipS (hQ.ite h.skipS (hQ.fail _))), hP.discard dec⟩

theorem vec {x : Counted α} (cfg : Cfg) (cap : Nat → Bool) (h : x.Has P Q) : (x.vec cfg cap).Has P Q := by
  have dec : P (x.vec cfg cap).dec := hP.bind (hP.of (readLen_eats0 cfg)) fun n => hP.ite (hP.pure _)
    (hP.bind (hP.of (Rd.Eats.alloc _)) fun _ => hP.readN h.dec n)
  exact ⟨dec, hQ.bind (hQ.of (readLen_eats0 cfg)) fun n => hQ.repeatN h.skip n,
    hQ.bind (hQ.of (readLen_eats0 cfg)) fun n => hQ.repeatN h.skipS n, hP.discard dec⟩

theorem coll {x : Counted α} (cfg : Cfg) (cap : Nat → Bool) (build) (h : x.Has P Q) : (x.coll cfg cap build).Has P Q := by
  have dec : P (x.coll cfg cap build).dec := hP.bind (hP.of (readLen_eats0 cfg)) fun n =>
    hP.bind (hP.of (Rd.Eats.alloc _)) fun _ => hP.bind (hP.readN h.dec n) fun _ => hP.pure _
  exact ⟨dec, hQ.bind (hQ.of (readLen_eats0 cfg)) fun n => hQ.repeatN h.skip n,
    hQ.bind (hQ.of (readLen_eats0 cfg)) fun n => hQ.repeatN h.skipS n, hP.discard dec⟩

theorem indexedMap {k : Counted κ} {v : Counted ν} (pre capK capV : Nat → Bool) (build) (hk : k.Has P Q) (hv : v.Has P Q) :
    (Counted.indexedMap pre capK capV k v build).Has P Q := by
  have dec : P (Counted.indexedMap pre capK capV k v build).dec := hP.bind (hP.of readByte_eats0) fun _ =>
    hP.bind (hP.of readVarint_eats0) fun len => hP.bind (hP.of (Rd.Eats.alloc _)) fun _ => hP.ite
      (hP.bind (hP.readN (hP.bind hk.dec fun _ => hP.bind hv.dec fun _ => hP.pure _) len) fun _ => hP.pure _)
      (hP.bind (hP.of (Rd.Eats.lift _)) fun _ => hP.bind (hP.of (Rd.Eats.lift _)) fun _ => hP.bind (hP.of (advance_eats0 _)) fun _ =>
        hP.bind (hP.of (Rd.Eats.alloc _)) fun _ => hP.bind (hP.readN hk.dec len) fun _ => hP.bind (hP.of (Rd.Eats.alloc _)) fun _ =>
          hP.bind (hP.readN hv.dec len) fun _ => hP.pure _)
  have skip : Q (Counted.skipIndexedMap k.skip v.skip) := hQ.bind (hQ.of readByte_eats0) fun _ =>
    hQ.bind (hQ.of readVarint_eats0) fun len => hQ.ite (hQ.repeatN (hQ.bind hk.skip fun _ => hv.skip) len)
      (hQ.bind (hQ.of (Rd.Eats.lift _)) fun _ => hQ.bind (hQ.of (advance_eats0 _)) fun _ =>
        hQ.bind (hQ.of (readExact_eats0 _)) fun _ => hQ.of (advance_eats0 _))
  exact ⟨dec, skip, skip, hP.discard dec⟩

theorem indexedSeq {c : Counted α} (cap : Nat → Bool) (h : c.Has P Q) : (Counted.indexedSeq cap c).Has P Q := by
  have dec : P (Counted.readIndexedSeq cap c.dec) := hP.bind (hP.of readByte_eats0) fun _ =>
    hP.bind (hP.of readVarint_eats0) fun len => hP.ite
      (hP.bind (hP.of (Rd.Eats.alloc _)) fun _ => hP.readN h.dec len)
      (hP.bind (hP.of (Rd.Eats.lift _)) fun _ => hP.bind (hP.of (advance_eats0 _)) fun _ =>
        hP.bind (hP.of (Rd.Eats.alloc _)) fun _ => hP.readN h.dec len)
  have skip : Q (Counted.skipIndexedSeq c.skip) := hQ.bind (hQ.of readByte_eats0) fun _ =>
    hQ.bind (hQ.of readVarint_eats0) fun len => hQ.ite (hQ.repeatN h.skip len) (hQ.ite (hQ.pure _)
      (hQ.bind (hQ.of (Rd.Eats.lift _)) fun _ => hQ.bind (hQ.of (peek_eats _)) fun _ => hQ.bind (hQ.of (Rd.Eats.lift _)) fun _ =>
        hQ.bind (hQ.of (advance_eats0 _)) fun _ => hQ.bind (hQ.of (advance_eats0 _)) fun _ => h.skip))
  exact ⟨dec, skip, skip, hP.discard dec⟩

theorem indexedSet {c : Counted α} (cap : Nat → Bool) (build) (h : c.Has P Q) : (Counted.indexedSet cap c build).Has P Q :=
  have := indexedSeq hP hQ cap h
  ⟨hP.bind this.dec fun _ => hP.pure _, this.skip, this.skipS, this.check⟩

theorem embed {V : Type} {c : Counted α} (h : c.Has P Q) (inj : α → V) : (c.embed inj).Has P Q :=
  ⟨hP.bind h.dec fun _ => hP.pure _, h.skip, h.skipS, h.check⟩

end Counted.Has

open Rd.Eats in
theorem bulkC_eats0 (cfg : Cfg) (cap : Nat → Bool) (W w : Nat) : (bulkC cfg cap W w).Eats0 := by
  have dec : (bulkC cfg cap W w).dec.Eats 0 := by
    refine bind0 (readLen_eats0 cfg) fun n => Rd.Eats.ite (pure _) ?_
    exact Rd.Eats.ite (bind0 (alloc _) fun _ => bind0 (readExact_eats0 _) fun _ => pure _) (fail _ _)
  exact ⟨dec, bind0 (readLen_eats0 cfg) fun _ => Rd.Eats.ite (advance_eats0 _) (fail _ _),
    bind0 (readLen_eats0 cfg) fun _ => Rd.Eats.ite (consume_eats _) (fail _ _), discard_eats dec⟩

open Rd.Eats in
theorem boolsC_eats0 (cfg : Cfg) (cap : Nat → Bool) : (boolsC cfg cap).Eats0 := by
  have dec : (boolsC cfg cap).dec.Eats 0 :=
    bind0 (readLen_eats0 cfg) fun n => Rd.Eats.ite (pure _) (bind0 (alloc _) fun _ => bind0 (readExact_eats0 _) fun _ =>
      bind0 (alloc _) fun _ => pure _)
  exact ⟨dec, bind0 (readLen_eats0 cfg) fun _ => advance_eats0 _, bind0 (readLen_eats0 cfg) fun _ => consume_eats _,
    discard_eats dec⟩

section
variable {P Q : {α : Type} → Ct α → Prop} (hP : Ct.Closed P) (hQ : Ct.Closed Q) {ι : Type}
include hP hQ

theorem countedVec_has (cfg : Cfg) (E : Env ι) (t : Ty ι) {x : Counted (t.denote E.X)} (h : x.Has P Q) :
    (countedVec cfg E t x).Has P Q := by
  have key : (Counted.call (.vec cfg (E.cap t) x)).Has P Q := .call hP hQ (.vec hP hQ cfg _ h)
  have bools : (boolsC cfg (E.cap .bool)).Eats0 := boolsC_eats0 cfg _
  have nums : ∀ cap W w, (bulkC cfg cap W w).Eats0 := fun cap W w => bulkC_eats0 cfg cap W w
  cases t <;> simp only [countedVec] <;> (try split) <;> first
    | exact key
    | exact .bulk hP hQ bools
    | exact .bulk hP hQ (nums _ _ _)

theorem Ty.counted_has (cfg : Cfg) (E : Env ι) (x : (i : ι) → Counted (E.X i)) (t : Ty ι) (hx : ∀ i ∈ t.refs, (x i).Has P Q) :
    (t.counted cfg E x).Has P Q := by
  obtain ⟨b1, b2, b3, b4, b5, b6, b7, b8, b9, b10, b11⟩ := Ty.leaf_eats cfg E
  have l : ∀ {s t : Ty ι}, (∀ i ∈ s.refs ++ t.refs, (x i).Has P Q) → ∀ i ∈ s.refs, (x i).Has P Q :=
    fun h i hi => h i (List.mem_append_left _ hi)
  have r : ∀ {s t : Ty ι}, (∀ i ∈ s.refs ++ t.refs, (x i).Has P Q) → ∀ i ∈ t.refs, (x i).Has P Q :=
    fun h i hi => h i (List.mem_append_right _ hi)
  induction t with
  | unit => exact .leaf hP hQ ⟨Rd.Eats.pure _, Rd.Eats.pure _, Rd.Eats.pure _, Rd.Eats.pure _⟩
  | bool => exact .leaf hP hQ b1.eats0
  | int k => exact .leaf hP hQ (b2 k).eats0
  | float f => exact .leaf hP hQ (b3 f).eats0
  | char => exact .leaf hP hQ b4.eats0
  | string => exact .leaf hP hQ b5.eats0
  | path => exact .leaf hP hQ b6.eats0
  | bytes => exact .leaf hP hQ b7.eats0
  | uuid => exact .leaf hP hQ b8.eats0
  | duration => exact .leaf hP hQ b9.eats0
  | systemTime => exact .leaf hP hQ b10.eats0
  | notNan f => exact .leaf hP hQ (b11 f).eats0
  | option t ih => exact .call hP hQ (.option hP hQ cfg (ih hx))
  | result t e iht ihe => exact .call hP hQ (.result hP hQ cfg (iht (l hx)) (ihe (r hx)))
  | bound t ih => exact .call hP hQ (.bound hP hQ cfg (ih hx))
  | wrap t ih => exact .call hP hQ (.wrap hP hQ (ih hx))
  | pair s t ihs iht => exact .call hP hQ (.both hP hQ (ihs (l hx)) (iht (r hx)))
  | array n t ih => exact .call hP hQ (.array hP hQ n (ih hx))
  | vec t ih => exact countedVec_has hP hQ cfg E t (ih hx)
  | btreeMap k v ihk ihv | hashMap k v ihk ihv =>
    exact .call hP hQ (.coll hP hQ cfg _ _ (.both hP hQ (ihk (l hx)) (ihv (r hx))))
  | btreeSet t ih | hashSet t ih | binaryHeap t ih | vector t ih => exact .call hP hQ (.coll hP hQ cfg _ _ (ih hx))
  | ext i => exact hx i (List.mem_singleton_self i)

theorem countedFixed_has (cfg : Cfg) (E : Env ι) (x : (i : ι) → Counted (E.X i)) (t : Ty ι) (hx : ∀ i ∈ t.refs, (x i).Has P Q) :
    (countedFixed cfg E x t).Has P Q := by
  have h := Ty.counted_has hP hQ cfg E x t hx
  cases t <;> try exact h
  rename_i k
  have hf : ∀ n, (fixedC n).Eats0 := fun n =>
    have h := discard_eats (readExact_eats0 n)
    ⟨(readLE_eats _ _).weaken (Nat.zero_le _), h, h, h⟩
  have hm : ∀ k, (intC cfg k).Eats0 := fun k =>
    have h := discard_eats (decInt_eats0 cfg k)
    ⟨decInt_eats0 cfg k, h, h, h⟩
  cases k <;> first | exact .leaf hP hQ (hf _) | exact .leaf hP hQ (hm _)

theorem countedBulk_has (cfg : Cfg) (E : Env ι) (x : (i : ι) → Counted (E.X i)) (t : Ty ι) (hx : ∀ i ∈ t.refs, (x i).Has P Q) :
    (countedBulk cfg E x t).Has P Q := by
  have h := Ty.counted_has hP hQ cfg E x t hx
  cases t <;> try exact h
  exact countedVec_has hP hQ _ E _ (Ty.counted_has hP hQ cfg E x _ hx)

theorem countedIndexed_has (cfg : Cfg) (E : Env ι) (x : (i : ι) → Counted (E.X i)) (t : Ty ι) (hx : ∀ i ∈ t.refs, (x i).Has P Q) :
    (countedIndexed cfg E x t).Has P Q := by
  have h := Ty.counted_has hP hQ cfg E x t hx
  have one := fun (t : Ty ι) hx => Ty.counted_has hP hQ cfg E x t hx
  cases t <;> first
    | exact .call hP hQ (.indexedMap hP hQ _ _ _ _ (one _ fun i hi => hx i (List.mem_append_left _ hi))
        (one _ fun i hi => hx i (List.mem_append_right _ hi)))
    | exact .call hP hQ (.indexedSeq hP hQ _ (one _ hx))
    | exact .call hP hQ (.indexedSet hP hQ _ _ (one _ hx))
    | exact h

end

/-! ### Derived types -/

/-- All readers of the field. -/
structure CountedField.Has {V : Type} (P Q : {α : Type} → Ct α → Prop) (f : CountedField V) : Prop where
  plain : f.plain.Has P Q
  fixedLe : f.fixedLe.Has P Q
  bulk : f.bulk.Has P Q
  indexed : f.indexed.Has P Q

section
variable {V : Type} {P Q : {α : Type} → Ct α → Prop}

namespace CountedField.Has
variable {f : CountedField V}

theorem legacy (h : f.Has P Q) : f.legacy.Has P Q := by
  unfold CountedField.legacy
  split
  · exact h.fixedLe
  · split
    · exact h.bulk
    · exact h.plain

theorem wire (h : f.Has P Q) (e : Entry) : (f.wire e).Has P Q := by
  unfold CountedField.wire
  split
  · split
    · exact h.indexed
    · exact h.plain
  · exact h.legacy

theorem removedDec (h : f.Has P Q) (e : Entry) : P (f.removedDec e) := by
  unfold CountedField.removedDec
  split
  · exact h.plain.dec
  · exact h.legacy.dec

theorem legacySkip (h : f.Has P Q) : Q f.legacySkip := by
  unfold CountedField.legacySkip
  split
  · exact h.fixedLe.skip
  · exact h.plain.skip

theorem legacySkipS (h : f.Has P Q) : Q f.legacySkipS := by
  unfold CountedField.legacySkipS
  split
  · exact h.fixedLe.skip
  · exact h.plain.skipS

end CountedField.Has

theorem countedFields_has (hP : Ct.Closed P) {live removed : CountedField V → Ct V} {cur tgt : Nat} :
    ∀ (fs : List (CountedField V)) (env : Binds V), (∀ f ∈ fs, P (live f)) → (∀ f ∈ fs, P (removed f)) →
    P (countedFields live removed cur tgt fs env)
  | [], _, _, _ => hP.pure _
  | f :: fs, env, hl, hr => by
    have ih := fun env => countedFields_has hP (cur := cur) (tgt := tgt) fs env
      (fun g hg => hl g (List.mem_cons_of_mem _ hg)) (fun g hg => hr g (List.mem_cons_of_mem _ hg))
    simp only [countedFields]
    exact hP.ite (hP.bind (hl f List.mem_cons_self) fun _ => ih _) (hP.ite (hP.bind (hP.of (Rd.Eats.lift _)) fun _ => ih _)
      (hP.ite (hP.bind (hr f List.mem_cons_self) fun _ => ih _) (ih _)))

theorem countedStructBody_has (hP : Ct.Closed P) {live removed : CountedField V → Ct V} {cur tgt : Nat} (fs : List (CountedField V))
    (hl : ∀ f ∈ fs, P (live f)) (hr : ∀ f ∈ fs, P (removed f)) : P (countedStructBody live removed cur tgt fs) :=
  hP.bind (countedFields_has hP fs [] hl hr) fun _ => hP.bind (hP.of (Rd.Eats.lift _)) fun _ => hP.of (Rd.Eats.lift _)

theorem countedSkipFields_has (hQ : Ct.Closed Q) {skip : CountedField V → Ct Unit} {cur tgt : Nat} :
    ∀ (fs : List (CountedField V)), (∀ f ∈ fs, Q (skip f)) → Q (countedSkipFields skip cur tgt fs)
  | [], _ => hQ.pure _
  | f :: fs, h => by
    have ih := countedSkipFields_has hQ (cur := cur) (tgt := tgt) fs fun g hg => h g (List.mem_cons_of_mem _ hg)
    simp only [countedSkipFields]
    exact hQ.ite (hQ.bind (h f List.mem_cons_self) fun _ => ih) (hQ.ite ih (hQ.ite (hQ.bind (h f List.mem_cons_self) fun _ => ih) ih))

theorem countedDispatch_has (hP : Ct.Closed P) (cfg : Cfg) (h : List Entry) {arm : Entry → Ct α} (ha : ∀ e ∈ h, P (arm e)) :
    P (countedDispatch cfg h arm) := by
  refine hP.bind (hP.of (readU16_eats0 cfg)) fun r => ?_
  generalize hf : h.find? (fun e => e.revision == r) = o
  cases o with
  | none => exact hP.fail _
  | some e => exact ha e (List.mem_of_find?_eq_some hf)

theorem countedSkipStruct_has (hQ : Ct.Closed Q) {adv : Nat → Rd Unit} (hadv : ∀ n, (adv n).Eats 0) {skip : CountedField V → Ct Unit}
    (e : Entry) (tgt : Nat) (fs : List (CountedField V)) (h : ∀ f ∈ fs, Q (skip f)) : Q (countedSkipStruct adv skip e tgt fs) :=
  hQ.ite (hQ.bind (hQ.of readVarlenLen_eats) fun _ => hQ.of (hadv _)) (countedSkipFields_has hQ fs h)

theorem countedSkipEnum_has (hQ : Ct.Closed Q) (cfg : Cfg) {adv : Nat → Rd Unit} (hadv : ∀ n, (adv n).Eats 0) {skip : CountedField V → Ct Unit}
    (e : Entry) (tgt : Nat) (vs : List (CountedVariant V)) (h : ∀ v ∈ vs, ∀ f ∈ v.fields, Q (skip f)) :
    Q (countedSkipEnum cfg adv skip e tgt vs) := by
  unfold countedSkipEnum
  refine hQ.ite (hQ.bind (hQ.of readOptimisedTag_eats) fun p => ?_) (hQ.bind (hQ.of (readU32_eats0 cfg)) fun d => ?_)
  · rcases p with ⟨tag, sc⟩
    cases sc with
    | inline => exact hQ.pure _
    | fixed => exact hQ.of (hadv _)
    | varlen => exact hQ.bind (hQ.of readVarlenLen_eats) fun _ => hQ.of (hadv _)
  · generalize hf : (countedArms vs e.revision).find? _ = o
    cases o with
    | none => exact hQ.fail _
    | some a => exact countedSkipFields_has hQ _ (h _ (countedArms_mem (List.mem_of_find?_eq_some hf)))

end

/-- A buffer filled with bytes of the input, and read at one less for each byte. -/
theorem Ct.Costs.buffer {R : Nat} {m : Rd Bytes} {g : Bytes → Ct α} {c : Ct α} (hc : Costs 0 R 0 false c)
    (hm : ∀ s b r, m s = .ok (b, r) → b.length + r.length ≤ s.length)
    (hg : ∀ b, (∃ b', b'.length ≤ b.length ∧ g b = c.within b') ∨ ∃ e, g b = Ct.of (Rd.fail e)) :
    Costs 0 (R + 1) 0 false (Ct.of m >>= fun b => Ct.tick (Tariff.copy * b.length) >>= fun _ => g b) := by
  have key : ∀ s, (Ct.of m >>= fun b => Ct.tick (Tariff.copy * b.length) >>= fun _ => g b) s = match m s with
    | .ok (a, r) => (a.length + (g a r).1, (g a r).2) | .err e => (0, .err e) | .panic => (0, .panic) := by
    intro s
    have h0 : (Ct.of m) s = (0, m s) := rfl
    rw [Ct.bind_run, h0]
    rcases m s with ⟨a, r⟩ | _ | _
    · show (0 + (1 * a.length + (g a r).1), (g a r).2) = _
      rw [Nat.zero_add, Nat.one_mul]
    · rfl
    · rfl
  have main : ∀ s b r, m s = .ok (b, r) → b.length + (g b r).1 + (R + 1) * r.length ≤ (R + 1) * s.length ∧
      ∀ v r', (g b r).2 = .ok (v, r') → r' = r := by
    intro s b r e
    have hl := Nat.mul_le_mul_left (R + 1) (hm s b r e)
    rw [Nat.mul_add, Nat.succ_mul] at hl
    rcases hg b with ⟨b', hb, e'⟩ | ⟨e', e''⟩
    · rw [e']
      have h1 := hc.2 b'
      have h2 := Nat.mul_le_mul_left R hb
      refine ⟨?_, fun v r' h => ?_⟩
      · show b.length + (c b').1 + _ ≤ _
        omega
      · have h : (match (c b').2 with | .ok (a, _) => .ok (a, r) | .err e => .err e | .panic => .panic : Res (α × Bytes)) = .ok (v, r') := h
        generalize (c b').2 = o at h
        rcases o with ⟨_, _⟩ | _ | _ <;> cases h
        rfl
    · rw [e'']
      refine ⟨?_, fun v r' h => by cases h⟩
      show b.length + 0 + _ ≤ _
      omega
  refine ⟨fun s k b r e => ?_, fun s => ?_⟩
  · rw [key] at e
    rcases hb : m s with ⟨a, s1⟩ | _ | _ <;> rw [hb] at e <;> try (cases e; done)
    simp only [Prod.mk.injEq] at e
    obtain ⟨h1, h2⟩ := main s a s1 hb
    have := h2 b r e.2
    subst this
    simp only [Bool.false_eq_true, if_false]
    omega
  · rw [key]
    rcases hb : m s with ⟨a, s1⟩ | _ | _ <;> simp only
    · obtain ⟨h1, h2⟩ := main s a s1 hb
      omega
    · omega
    · omega

/-- At most `R` bytes copied for each byte taken. -/
abbrev Ct.Copies (R : Nat) : {α : Type} → Ct α → Prop := fun m => Ct.Costs 0 R 0 false m

section
variable {V : Type} {R : Nat}

theorem countedStruct_copies (e : Entry) (tgt : Nat) (fs : List (CountedField V)) (h : ∀ f ∈ fs, f.Has (Ct.Copies R) (Ct.Copies 0))
    (ho : e.optimised = true → ∃ R', R = R' + 1 ∧ ∀ f ∈ fs, f.Has (Ct.Copies R') (Ct.Copies 0)) :
    Ct.Copies R (countedStruct e tgt fs) := by
  have body := fun R (h : ∀ f ∈ fs, f.Has (Ct.Copies R) (Ct.Copies 0)) =>
    countedStructBody_has (.costs R) (cur := e.revision) (tgt := tgt) (live := fun f => (f.wire e).dec)
      (removed := fun f => f.removedDec e) fs (fun f hf => ((h f hf).wire e).dec) (fun f hf => (h f hf).removedDec e)
  unfold countedStruct
  by_cases he : e.optimised = true
  · obtain ⟨R', rfl, h'⟩ := ho he
    simp only [he, if_true]
    refine .buffer (body R' h') (fun s b r hm => ?_) fun b => ?_
    · obtain ⟨n, s1, h1, h2⟩ := Rd.bind_ok.1 hm
      have := readVarlenLen_eats _ _ _ h1
      have := (readExact_split h2).1
      have h3 : s1.length = b.length + r.length := by rw [this, List.length_append]
      omega
    · split
      · split
        · exact .inr ⟨_, rfl⟩
        · exact .inl ⟨_, by simp, rfl⟩
      · exact .inl ⟨_, Nat.le_refl _, rfl⟩
  · simp only [he]
    exact body R h

theorem countedAlive_has {P Q : {α : Type} → Ct α → Prop} (hP : Ct.Closed P) {r : Nat} :
    ∀ (fs : List (CountedField V)), (∀ f ∈ fs, f.Has P Q) → P (countedAlive r fs)
  | [], _ => hP.pure _
  | f :: fs, h => by
    have ih := countedAlive_has hP (r := r) fs fun g hg => h g (List.mem_cons_of_mem _ hg)
    simp only [countedAlive]
    exact hP.ite (hP.bind (h f List.mem_cons_self).plain.dec fun _ => hP.bind ih fun _ => hP.pure _) ih

theorem Ct.bind_assoc3 {m : Ct α} {t : α → Ct Unit} {f : α → Ct β} {g : β → Ct γ} :
    (m >>= fun a => t a >>= fun _ => f a >>= g) = ((m >>= fun a => t a >>= fun _ => f a) >>= g) := by
  show Ct.mk _ = Ct.mk _
  congr
  funext s
  simp only [Ct.bind_run]
  rcases m s with ⟨k1, ⟨a, r⟩ | _ | _⟩
  · simp only
    rcases t a r with ⟨k2, ⟨b, r2⟩ | _ | _⟩
    · simp only
      rcases f a r2 with ⟨k3, ⟨c, r3⟩ | _ | _⟩
      · simp only [Nat.add_assoc]
      · rfl
      · rfl
    · rfl
    · rfl
  · rfl
  · rfl

theorem countedEnum_copies (cfg : Cfg) (e : Entry) (tgt : Nat) (vs : List (CountedVariant V))
    (h : ∀ v ∈ vs, ∀ f ∈ v.fields, f.Has (Ct.Copies R) (Ct.Copies 0))
    (ho : e.optimised = true → ∃ R', R = R' + 1 ∧ ∀ v ∈ vs, ∀ f ∈ v.fields, f.Has (Ct.Copies R') (Ct.Copies 0)) :
    Ct.Copies R (countedEnum cfg e tgt vs) := by
  have hP := Ct.Closed.costs R
  unfold countedEnum
  by_cases he : e.optimised = true
  · obtain ⟨R', rfl, h'⟩ := ho he
    simp only [he, if_true]
    refine hP.bind (hP.of readOptimisedTag_eats) fun p => ?_
    rcases p with ⟨tag, sc⟩
    simp only
    generalize hf : (countedArms vs e.revision).find? _ = o
    cases o with
    | none => exact hP.fail _
    | some a =>
      simp only
      unfold countedOptimisedVariant
      rw [Ct.bind_assoc3]
      refine hP.bind (Ct.Costs.buffer (countedAlive_has (.costs R') _ (h' _ (countedArms_mem (List.mem_of_find?_eq_some hf))))
        (fun s b r hm => readSized_total hm) fun b => .inl ⟨b, Nat.le_refl _, rfl⟩) fun _ => hP.ite (hP.pure _) (hP.of (Rd.Eats.lift _))
  · simp only [he]
    refine hP.bind (hP.of (readU32_eats0 cfg)) fun d => ?_
    generalize hf : (countedArms vs e.revision).find? _ = o
    cases o with
    | none => exact hP.fail _
    | some a =>
      have h := h _ (countedArms_mem (List.mem_of_find?_eq_some hf))
      exact hP.bind (countedStructBody_has hP _ (fun f hf => (h f hf).legacy.dec) (fun f hf => (h f hf).legacy.dec)) fun _ =>
        hP.ite (hP.pure _) (hP.of (Rd.Eats.lift _))

end

section
variable {ι : Type} {K : ι → Kind} [DecidableEq ι] {R : Nat}

theorem Field.counted_has {P Q : {α : Type} → Ct α → Prop} (hP : Ct.Closed P) (hQ : Ct.Closed Q) (cfg : Cfg) (I : Impls K) (n : Nat)
    (c : (i : ι) → Codec (Values K n i)) (x : (i : ι) → Counted (Values K n i)) (f : Field K) (hx : ∀ i ∈ f.ty.refs, (x i).Has P Q) :
    (f.counted cfg I n c x).Has P Q :=
  ⟨.embed hP hQ (Ty.counted_has hP hQ cfg (I.env n c) x f.ty hx) _, .embed hP hQ (countedFixed_has hP hQ cfg (I.env n c) x f.ty hx) _,
    .embed hP hQ (countedBulk_has hP hQ cfg (I.env n c) x f.ty hx) _, .embed hP hQ (countedIndexed_has hP hQ cfg (I.env n c) x f.ty hx) _⟩

theorem Body.counted_copies (cfg : Cfg) (I : Impls K) (n : Nat) (c : (i : ι) → Codec (Values K n i))
    (x : (i : ι) → Counted (Values K n i)) (h : List Entry) : {k : Kind} → (b : Body K k) →
    (∀ i ∈ b.types.flatMap Ty.refs, (x i).Has (Ct.Copies R) (Ct.Copies 0)) →
    ((∃ e ∈ h, e.optimised = true) → ∃ R', R = R' + 1 ∧ ∀ i ∈ b.types.flatMap Ty.refs, (x i).Has (Ct.Copies R') (Ct.Copies 0)) →
    (b.counted cfg I n c x h).Has (Ct.Copies R) (Ct.Copies 0)
  | _, .struct fs, hx, ho => by
    have fld : ∀ R, (∀ i ∈ (Body.struct fs).types.flatMap Ty.refs, (x i).Has (Ct.Copies R) (Ct.Copies 0)) →
        ∀ g ∈ fs.map (·.counted cfg I n c x), g.Has (Ct.Copies R) (Ct.Copies 0) := by
      intro R hx g hg
      obtain ⟨f, hf, rfl⟩ := List.mem_map.1 hg
      exact f.counted_has (.costs R) (.costs 0) cfg I n c x fun i hi => hx i (List.mem_flatMap.2 ⟨_, List.mem_map_of_mem hf, hi⟩)
    have hf := fld R hx
    have dec := countedDispatch_has (.costs R) cfg h fun e he => countedStruct_copies e (latest h) _ hf fun ho' => by
      obtain ⟨R', e', h'⟩ := ho ⟨e, he, ho'⟩
      exact ⟨R', e', fld R' h'⟩
    exact .call (.costs R) (.costs 0) ⟨dec,
      countedDispatch_has (.costs 0) cfg h fun e _ => countedSkipStruct_has (.costs 0) advance_eats0 e (latest h) _ fun f hm => (hf f hm).legacySkip,
      countedDispatch_has (.costs 0) cfg h fun e _ => countedSkipStruct_has (.costs 0) consume_eats e (latest h) _ fun f hm => (hf f hm).legacySkipS,
      Ct.Closed.discard (.costs R) dec⟩
  | _, .enum vs, hx, ho => by
    have fld : ∀ R, (∀ i ∈ (Body.enum vs).types.flatMap Ty.refs, (x i).Has (Ct.Copies R) (Ct.Copies 0)) →
        ∀ v ∈ vs.map (·.counted cfg I n c x), ∀ g ∈ v.fields, g.Has (Ct.Copies R) (Ct.Copies 0) := by
      intro R hx v hv g hg
      obtain ⟨w, hw, rfl⟩ := List.mem_map.1 hv
      obtain ⟨f, hf, rfl⟩ := List.mem_map.1 hg
      exact f.counted_has (.costs R) (.costs 0) cfg I n c x fun i hi => hx i (List.mem_flatMap.2
        ⟨_, List.mem_flatMap.2 ⟨w, hw, List.mem_map_of_mem hf⟩, hi⟩)
    have hf := fld R hx
    have dec := countedDispatch_has (.costs R) cfg h fun e he => countedEnum_copies cfg e (latest h) _ hf fun ho' => by
      obtain ⟨R', e', h'⟩ := ho ⟨e, he, ho'⟩
      exact ⟨R', e', fld R' h'⟩
    exact .call (.costs R) (.costs 0) ⟨dec,
      countedDispatch_has (.costs 0) cfg h fun e _ => countedSkipEnum_has (.costs 0) cfg advance_eats0 e (latest h) _ fun v hv f hm => (hf v hv f hm).legacySkip,
      countedDispatch_has (.costs 0) cfg h fun e _ => countedSkipEnum_has (.costs 0) cfg consume_eats e (latest h) _ fun v hv f hm => (hf v hv f hm).legacySkipS,
      Ct.Closed.discard (.costs R) dec⟩
  | _, .foreign i, _, _ => .leaf (.costs R) (.costs 0) ⟨fun _ _ _ h => onSlice_length (i.dec_slice ▸ h), i.skip_eats,
      by rw [i.skipS_eq]; exact i.skip_eats, i.check_eats⟩

theorem le_foldr_max {l : List Nat} {a : Nat} (h : a ∈ l) : a ≤ l.foldr max 0 := by
  induction l with
  | nil => cases h
  | cons b l ih =>
    simp only [List.foldr_cons]
    rcases List.mem_cons.1 h with rfl | h
    · omega
    · have := ih h; omega

theorem Program.counted_copies (cfg : Cfg) (P : Program ι) (I : Impls P.kind) :
    ∀ (n : Nat) (i : ι) (R : Nat), P.layers n i ≤ R → (P.copying cfg I n i).Has (Ct.Copies R) (Ct.Copies 0)
  | 0, _, R, _ => .leaf (.costs R) (.costs 0) ⟨nofun, nofun, nofun, nofun⟩
  | n + 1, i, R, hR => by
    have ih := Program.counted_copies cfg P I n
    simp only [Program.layers] at hR
    have le : ∀ j ∈ P.refs i, P.layers n j ≤ ((P.refs i).map (P.layers n)).foldr max 0 :=
      fun j hj => le_foldr_max (List.mem_map_of_mem hj)
    refine Body.counted_copies cfg I n _ _ (P.history i) (P.body i) (fun j hj => ih j R ?_) fun ⟨e, he, ho⟩ => ?_
    · have := le j hj
      omega
    · have : P.framed i = true := List.any_eq_true.2 ⟨e, he, ho⟩
      rw [this, if_pos rfl] at hR
      refine ⟨R - 1, by omega, fun j hj => ih j (R - 1) ?_⟩
      have := le j hj
      omega

end

end Revision
