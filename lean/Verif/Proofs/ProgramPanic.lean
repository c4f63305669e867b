import Verif.Proofs.Program
import Verif.Props.DerivePanic

/-! Helper lemmas: programs do not panic on arbitrary bytes. -/

namespace Revision

/-- The codec with the slice skip as its skip. -/
def Codec.viaS (c : Codec α) : Codec α := { c with skip := c.skipS }

theorem Codec.PanicFree.viaS {c : Codec α} (h : c.PanicFree) (hs : c.skipS.NoPanic) : c.viaS.PanicFree :=
  ⟨h.dec, hs, h.check⟩

section
variable {ι : Type} {E : Env ι}

theorem vecOf_skipS_noPanic (cfg : Cfg) (hcap : ∀ t n, E.cap t n = true) (t : Ty ι) {c : Codec (t.denote E.X)}
    (h : c.PanicFree) (hs : c.skipS.NoPanic) : (vecOf cfg E t c).skipS.NoPanic := by
  have key : (vecC cfg (E.cap t) c).skipS.NoPanic := (vecC_panicFree cfg (hcap t) (h.viaS hs)).skip
  cases t <;> simp only [vecOf] <;> try exact key
  case bool =>
    split
    · rw [(boolsC_lawful cfg _).skipS_eq]; exact (boolsC_panicFree cfg (hcap _)).skip
    · exact key
  case int k =>
    split
    · rw [(bulkC_lawful cfg _ k.bits_eight).skipS_eq]; exact (bulkC_panicFree cfg (hcap _) _ _).skip
    · exact key
  case float f =>
    split
    · rw [(bulkC_lawful cfg _ rfl).skipS_eq]; exact (bulkC_panicFree cfg (hcap _) _ _).skip
    · exact key
  case uuid =>
    split
    · rw [(bulkC_lawful cfg _ (W := 128) (w := 16) rfl).skipS_eq]; exact (bulkC_panicFree cfg (hcap _) _ _).skip
    · exact key

theorem Ty.codec_skipS_noPanic (cfg : Cfg) (hcap : ∀ t n, E.cap t n = true) (hx : ∀ i, (E.extC i).PanicFree)
    (hxs : ∀ i, (E.extC i).skipS.NoPanic) (t : Ty ι) (ht : t.timeFree = true) : (t.codec cfg E).skipS.NoPanic := by
  have hp := fun t ht => Ty.codec_panicFree cfg hcap hx t ht
  induction t with
  | unit => exact unitC_panicFree.skip
  | bool => exact boolC_lawful.skipS_eq ▸ boolC_panicFree.skip
  | int k => exact (intC_lawful cfg k).skipS_eq ▸ (intC_panicFree cfg k).skip
  | float n => exact (floatC_lawful _).skipS_eq ▸ (floatC_panicFree _).skip
  | char => exact charC_lawful.skipS_eq ▸ charC_panicFree.skip
  | string => exact (stringC_lawful cfg _).skipS_eq ▸ (stringC_panicFree cfg (hcap _)).skip
  | path => exact (pathC_lawful cfg _).skipS_eq ▸ (pathC_panicFree cfg (hcap _)).skip
  | bytes => exact (bytesC_lawful cfg _).skipS_eq ▸ (bytesC_panicFree cfg (hcap _)).skip
  | uuid => exact uuidC_lawful.skipS_eq ▸ uuidC_panicFree.skip
  | duration => simp [Ty.timeFree] at ht
  | systemTime => simp [Ty.timeFree] at ht
  | notNan n => exact (notNanC_lawful _).skipS_eq ▸ (notNanC_panicFree _).skip
  | option t ih => exact (optionC_panicFree cfg ((hp t ht).viaS (ih ht))).skip
  | result t e iht ihe =>
    simp [Ty.timeFree] at ht
    exact (resultC_panicFree cfg ((hp t ht.1).viaS (iht ht.1)) ((hp e ht.2).viaS (ihe ht.2))).skip
  | bound t ih => exact (boundC_panicFree cfg ((hp t ht).viaS (ih ht))).skip
  | wrap t ih => exact ih ht
  | pair s t ihs iht =>
    simp [Ty.timeFree] at ht
    exact (pairC_panicFree ((hp s ht.1).viaS (ihs ht.1)) ((hp t ht.2).viaS (iht ht.2))).skip
  | array n t ih => exact (arrayC_panicFree n ((hp t ht).viaS (ih ht))).skip
  | vec t ih => exact vecOf_skipS_noPanic cfg hcap t (hp t ht) (ih ht)
  | btreeMap k v ihk ihv =>
    simp [Ty.timeFree] at ht
    exact (collC_panicFree cfg (hcap .unit) (pairC_panicFree ((hp k ht.1).viaS (ihk ht.1)) ((hp v ht.2).viaS (ihv ht.2)))
      (inv := fun _ => True) (build := fun l => l)).skip
  | btreeSet k ih =>
    exact (collC_panicFree cfg (hcap .unit) ((hp k ht).viaS (ih ht)) (inv := fun _ => True) (build := fun l => l)).skip
  | hashMap k v ihk ihv =>
    simp [Ty.timeFree] at ht
    exact (collC_panicFree cfg (hcap .unit) (pairC_panicFree ((hp k ht.1).viaS (ihk ht.1)) ((hp v ht.2).viaS (ihv ht.2)))
      (inv := fun _ => True) (build := fun l => l)).skip
  | hashSet k ih =>
    exact (collC_panicFree cfg (hcap .unit) ((hp k ht).viaS (ih ht)) (inv := fun _ => True) (build := fun l => l)).skip
  | binaryHeap t ih | vector t ih =>
    exact (collC_panicFree cfg (hcap .unit) ((hp t ht).viaS (ih ht)) (inv := fun _ => True) (build := fun l => l)).skip
  | ext i => exact hxs i

end

theorem Codec.NeverPanics.panicFree {c : Codec α} (h : c.NeverPanics) : c.PanicFree := ⟨h.dec, h.skip, h.check⟩

section
variable {ι : Type} {K : ι → Kind} [DecidableEq ι]

theorem Field.decl_safe (cfg : Cfg) (I : Impls K) (hcap : ∀ t n, I.cap t n = true) (n : Nat)
    {c : (i : ι) → Codec (Values K n i)} (hc : ∀ i, (c i).NeverPanics) (f : Field K) (hf : f.Tame) :
    (f.decl cfg I n c).Safe := by
  have hp := fun (t : Ty ι) ht => Ty.codec_panicFree (E := I.env n c) cfg hcap (fun i => (hc i).panicFree) t ht
  rcases f with ⟨name, opts, t, dflt, convert⟩
  obtain ⟨ht, hm, hi, hd, hcv⟩ := hf
  simp only at ht hm hi hd hcv
  refine ⟨dynC_panicFree t (hp t ht), ?_, dynC_panicFree t ?_, dynC_panicFree t ?_, ?_, ?_, ?_⟩
  · exact Ty.codec_skipS_noPanic (E := I.env n c) cfg hcap (fun i => (hc i).panicFree) (fun i => (hc i).skipS) t ht
  · cases t <;> first
      | exact hp _ ht
      | (rename_i k; cases k <;> first | exact intC_panicFree cfg _ | exact fixedC_panicFree _)
  · cases t <;> first
      | exact hp _ ht
      | exact vecOf_panicFree _ hcap _ (hp _ ht)
  · intro h
    refine dynC_panicFree t ?_
    have : opts.indexedSeq = true ∨ opts.indexedSet = true := by
      simpa [FieldDecl.isIndexed, Field.decl, tyField, hm] using h
    rcases hi this with ⟨a, rfl⟩ | ⟨a, rfl⟩ | ⟨a, rfl⟩ | ⟨a, rfl⟩
    · exact indexedSeqC_panicFree (hcap _) (hp a ht)
    · exact indexedSeqC_panicFree (hcap _) (hp a ht)
    · exact indexedBTreeSetC_panicFree (hcap _) _ (hp a ht)
    · exact indexedHashSetC_panicFree (hcap _) _ (hp a ht)
  · intro r
    have := hd n r
    simp only [Field.decl, tyField]
    cases hr : dflt n r with
    | ok a => exact fun h => nomatch h
    | err e => exact fun h => nomatch h
    | panic => exact absurd hr this
  · rintro r v this ⟨s, rest, hv⟩
    have : ∃ a, v = ⟨t, a⟩ := by
      rcases hv with hv | hv | hv <;>
      · obtain ⟨a, s', _, hv⟩ := Rd.bind_ok.1 hv
        cases hv
        exact ⟨a, rfl⟩
    obtain ⟨a, rfl⟩ := this
    have hpr := (Dyn.proj_eq_some (E := I.env n c) t ⟨t, a⟩ a).2 rfl
    unfold Field.decl tyField
    simp only
    split
    · exact hcv _ _ _ _
    · rename_i h
      exact absurd (h.symm.trans hpr) (by simp)

theorem Body.neverPanics (cfg : Cfg) (I : Impls K) (hcap : ∀ t n, I.cap t n = true) (n : Nat)
    {c : (i : ι) → Codec (Values K n i)} (hc : ∀ i, (c i).NeverPanics) (h : List Entry) :
    {k : Kind} → (b : Body K k) → b.Tame h → (b.codec cfg I n c h).NeverPanics
  | _, .struct fs, ⟨hf, hn⟩ => by
    refine C68_struct cfg h _ (fun e he => ?_) fun f hf' => ?_
    · have := hn e he
      unfold DistinctFieldNames at this
      unfold DistinctNames
      rw [List.filter_map, List.map_map]
      exact this
    · obtain ⟨f, hfm, rfl⟩ := List.mem_map.1 hf'
      exact f.decl_safe cfg I hcap n hc (hf f hfm)
  | _, .enum vs, ⟨hf, hn, hx⟩ => by
    refine C68_enum cfg h _ (fun e he v hv => ?_) fun v hv => ⟨fun f hf' => ?_, fun hex fields r _ => ?_⟩
    · obtain ⟨v, hvm, rfl⟩ := List.mem_map.1 hv
      have := hn e he v hvm
      unfold DistinctFieldNames at this
      unfold DistinctNames
      simp only [Variant.decl]
      rw [List.filter_map, List.map_map]
      exact this
    · obtain ⟨v, hvm, rfl⟩ := List.mem_map.1 hv
      obtain ⟨f, hfm, rfl⟩ := List.mem_map.1 hf'
      exact f.decl_safe cfg I hcap n hc (hf v hvm f hfm)
    · obtain ⟨v, hvm, rfl⟩ := List.mem_map.1 hv
      exact hx v hvm hex n fields r
  | _, .foreign x, hx => ⟨hx.dec, hx.skip, fun s => x.skipS_eq ▸ hx.skip s, hx.check⟩

end

theorem Program.neverPanics {ι : Type} [DecidableEq ι] (cfg : Cfg) (P : Program ι) (I : Impls P.kind)
    (hcap : ∀ t n, I.cap t n = true) (hP : P.Tame) : ∀ (n : Nat) (i : ι), (P.codec cfg I n i).NeverPanics
  | 0, _ => ⟨fun _ => nofun, fun _ => nofun, fun _ => nofun, fun _ => nofun⟩
  | n + 1, i => Body.neverPanics cfg I hcap n (Program.neverPanics cfg P I hcap hP n) (P.history i) (P.body i) (hP i)

end Revision
