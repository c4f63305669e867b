import Verif.Spec.Machine
import Verif.Proofs.MachineEnc
import Verif.Proofs.AllocSkip

/-! Helper lemmas: builds with and without overflow checks. -/

namespace Revision

namespace Machine

theorem codec_bits {ι : Type} (B : Nat) (x y : Bool) (cfg : Cfg) (E : Env ι) (t : Ty ι) :
    (⟨B, x⟩ : Machine).codec cfg E t = (⟨B, y⟩ : Machine).codec cfg E t := by
  induction t with
  | vec t ih =>
    show (⟨B, x⟩ : Machine).vecOf cfg E t _ = (⟨B, y⟩ : Machine).vecOf cfg E t _
    rw [ih]
    rfl
  | unit | bool | int | float | char | string | bytes | uuid | duration | systemTime | notNan | path | ext => rfl
  | option t ih | bound t ih | wrap t ih | array n t ih => simp only [codec, ih]
  | result s t ihs iht | pair s t ihs iht => simp only [codec, ihs, iht]
  | btreeSet t ih | hashSet t ih | binaryHeap t ih | vector t ih =>
    simp only [codec, ih]
    rfl
  | btreeMap k v ihk ihv | hashMap k v ihk ihv =>
    simp only [codec, ihk, ihv]
    rfl

theorem fixedOf_bits {ι : Type} (B : Nat) (x y : Bool) (cfg : Cfg) (E : Env ι) (t : Ty ι) :
    (⟨B, x⟩ : Machine).fixedOf cfg E t = (⟨B, y⟩ : Machine).fixedOf cfg E t := by
  cases t <;> try exact codec_bits B x y cfg E _
  rfl

theorem bulkOf_bits {ι : Type} (B : Nat) (x y : Bool) (cfg : Cfg) (E : Env ι) (t : Ty ι) :
    (⟨B, x⟩ : Machine).bulkOf cfg E t = (⟨B, y⟩ : Machine).bulkOf cfg E t := by
  cases t <;> try exact codec_bits B x y cfg E _
  rename_i t
  show (⟨B, x⟩ : Machine).vecOf _ E t _ = (⟨B, y⟩ : Machine).vecOf _ E t _
  rw [codec_bits B x y]
  rfl

/-! ### Every type takes its bytes -/

section
open Rd.Eats
variable {M : Machine}

theorem decInt_eats (cfg : Cfg) (k : IntTy) : (M.decInt cfg k).Eats 1 := by
  cases k <;> first
    | exact Revision.decInt_eats cfg _
    | exact bind0 (Revision.decInt_eats cfg _) fun _ => pure _

theorem readLen_eats (cfg : Cfg) : (M.readLen cfg).Eats 1 := bind0 (decInt_eats cfg _) fun _ => pure _

theorem readBytes_eats (cfg : Cfg) (cap : Nat → Bool) : (M.readBytes cfg cap).Eats 1 :=
  bind0 (readLen_eats cfg) fun n => ite (pure _) (bind0 (alloc _) fun _ => (readExact n).weaken (by omega))

theorem bulkC_eats (cfg : Cfg) (cap : Nat → Bool) (W w : Nat) : (M.bulkC cfg cap W w).dec.Eats 1 :=
  bind0 (readLen_eats cfg) fun _ => ite (pure _) (bind0 (lift _) fun _ => bind0 (alloc _) fun _ =>
    (bind0 (readExact _) fun _ => pure _).weaken (by omega))

theorem boolsC_eats (cfg : Cfg) (cap : Nat → Bool) : (M.boolsC cfg cap).dec.Eats 1 :=
  bind0 (readLen_eats cfg) fun _ => ite (pure _) (bind0 (alloc _) fun _ =>
    (bind0 (readExact _) fun _ => bind0 (alloc _) fun _ => pure _).weaken (by omega))

theorem readVarint_eats : M.readVarint.Eats 1 := bind0 Revision.readVarint_eats fun _ => lift _

end

section
open Rd.Upto
variable {L : Nat} {M : Machine}

theorem vecC_upto {cfg : Cfg} {cap : Nat → Bool} {c c' : Codec α} (h : c.dec.Upto False L c'.dec) :
    (M.vecC cfg cap c).dec.Upto False L (M.vecC cfg cap c').dec :=
  bind (refl ((readLen_eats cfg).weaken (by omega))) fun n =>
    ite (refl (Rd.Eats.pure _)) (bind (refl (Rd.Eats.alloc _)) fun _ => readN h n)

theorem collC_upto {cfg : Cfg} {cap : Nat → Bool} {c c' : Codec α} {inv build} (h : c.dec.Upto False L c'.dec) :
    (M.collC cfg cap c inv build).dec.Upto False L (M.collC cfg cap c' inv build).dec :=
  bind (refl ((readLen_eats cfg).weaken (by omega))) fun n =>
    bind (refl (Rd.Eats.alloc _)) fun _ => bind (readN h n) fun _ => refl (Rd.Eats.pure _)

end

section
open Rd.Upto
variable {ι : Type} {L : Nat} {M : Machine} {E : Env ι} {c' : (i : ι) → Codec (E.X i)}

theorem vecOf_upto (cfg : Cfg) (t : Ty ι) {c d : Codec (t.denote E.X)} (h : c.dec.Upto False L d.dec) :
    (M.vecOf cfg E t c).dec.Upto False L (M.vecOf cfg { E with extC := c' } t d).dec := by
  have key : (M.vecC cfg (E.cap t) c).dec.Upto False L (M.vecC cfg (E.cap t) d).dec := vecC_upto h
  cases t <;> simp only [vecOf] <;> try exact key
  all_goals
    split
    · first
      | exact refl (Rd.Eats.weaken (bulkC_eats _ _ _ _) (Nat.zero_le 1))
      | exact refl (Rd.Eats.weaken (boolsC_eats _ _) (Nat.zero_le 1))
    · exact key

theorem codec_upto (cfg : Cfg) (hx : ∀ i, (E.extC i).dec.Upto False L (c' i).dec)
    (hw : ∀ i, (c' i).dec.Eats 1) (t : Ty ι) :
    (M.codec cfg E t).dec.Upto False L (M.codec cfg { E with extC := c' } t).dec := by
  have self : ∀ t : Ty ι, (t.codec cfg { E with extC := c' }).dec.Upto False L (t.codec cfg { E with extC := c' }).dec :=
    fun t => refl ((Ty.codec_eats cfg { E with extC := c' } hw t).weaken (by omega))
  induction t with
  | unit => exact self .unit
  | bool => exact self .bool
  | int k => exact refl ((decInt_eats cfg k).weaken (by omega))
  | float f => exact self (.float f)
  | char => exact self .char
  | uuid => exact self .uuid
  | duration => exact self .duration
  | systemTime => exact self .systemTime
  | notNan f => exact self (.notNan f)
  | string => exact bind (refl ((readBytes_eats cfg _).weaken (by omega))) fun _ => refl (Rd.Eats.lift _)
  | path =>
    exact bind (bind (refl ((readBytes_eats cfg _).weaken (by omega))) fun _ => refl (Rd.Eats.lift _)) fun _ =>
      refl (Rd.Eats.pure _)
  | bytes => exact refl ((readBytes_eats cfg _).weaken (by omega))
  | option t ih =>
    exact bind (refl ((Revision.decInt_eats cfg _).weaken (by omega))) fun _ => ite (refl (Rd.Eats.pure _))
      (ite (bind ih fun _ => refl (Rd.Eats.pure _)) (refl (Rd.Eats.fail _ _)))
  | result t e iht ihe =>
    exact bind (refl ((readU32_eats cfg).weaken (by omega))) fun _ =>
      ite (bind iht.mapErr fun _ => refl (Rd.Eats.pure _))
        (ite (bind ihe.mapErr fun _ => refl (Rd.Eats.pure _)) (refl (Rd.Eats.fail _ _)))
  | bound t ih =>
    exact bind (refl ((readU32_eats cfg).weaken (by omega))) fun _ => ite (refl (Rd.Eats.pure _))
      (ite (bind ih.mapErr fun _ => refl (Rd.Eats.pure _))
        (ite (bind ih.mapErr fun _ => refl (Rd.Eats.pure _)) (refl (Rd.Eats.fail _ _))))
  | wrap t ih => exact ih
  | pair s t ihs iht => exact pairC_upto ihs iht
  | array n t ih => exact readN ih n
  | vec t ih => exact vecOf_upto cfg t ih
  | btreeMap k v ihk ihv | hashMap k v ihk ihv => exact collC_upto (pairC_upto ihk ihv)
  | btreeSet t ih | hashSet t ih | binaryHeap t ih | vector t ih => exact collC_upto ih
  | ext i => exact hx i

end

/-! ### Indexed collections on a 64-bit machine -/

section
variable {M : Machine}

theorem holds_host (hM : M.bits = 64) (r : Res Bytes) : M.Holds r := fun h => by omega

theorem indexedBTreeMapC_host (hM : M.bits = 64) (hc : M.checks = true) (capK capV : Nat → Bool)
    (cmp : κ → κ → Ordering) (k : Codec κ) (v : Codec ν) :
    M.indexedBTreeMapC capK capV cmp k v = Revision.indexedBTreeMapC capK capV cmp k v :=
  Codec.same (fun _ => and_iff_left (holds_host hM _)) rfl (readIndexedMap_host hM hc ..)
    (skipIndexedMap_host hM _ _) (skipIndexedMap_host hM _ _)
    (congrArg Rd.discard (readIndexedMap_host hM hc ..))

theorem indexedHashMapC_host (hM : M.bits = 64) (hc : M.checks = true) (pre capK capV : Nat → Bool)
    (eq : κ → κ → Bool) (k : Codec κ) (v : Codec ν) :
    M.indexedHashMapC pre capK capV eq k v = Revision.indexedHashMapC pre capK capV eq k v :=
  Codec.same (fun _ => and_iff_left (holds_host hM _)) rfl (readIndexedMap_host hM hc ..)
    (skipIndexedMap_host hM _ _) (skipIndexedMap_host hM _ _)
    (congrArg Rd.discard (readIndexedMap_host hM hc ..))

theorem indexedSeqC_host (hM : M.bits = 64) (cap : Nat → Bool) (c : Codec α) :
    M.indexedSeqC cap c = Revision.indexedSeqC cap c :=
  Codec.same (fun _ => and_iff_left (holds_host hM _)) rfl (readIndexedSeq_host hM ..)
    (skipIndexedSeq_host hM _) (skipIndexedSeq_host hM _)
    (congrArg Rd.discard (readIndexedSeq_host hM ..))

theorem indexedBTreeSetC_host (hM : M.bits = 64) (cap : Nat → Bool) (cmp : α → α → Ordering) (c : Codec α) :
    M.indexedBTreeSetC cap cmp c = Revision.indexedBTreeSetC cap cmp c :=
  Codec.same (fun _ => and_iff_left (holds_host hM _)) rfl
    (congrArg (· >>= fun l => pure (btreeBuild cmp id l)) (readIndexedSeq_host hM ..))
    (skipIndexedSeq_host hM _) (skipIndexedSeq_host hM _)
    (congrArg Rd.discard (readIndexedSeq_host hM ..))

theorem indexedHashSetC_host (hM : M.bits = 64) (cap : Nat → Bool) (eq : α → α → Bool) (c : Codec α) :
    M.indexedHashSetC cap eq c = Revision.indexedHashSetC cap eq c :=
  Codec.same (fun _ => and_iff_left (holds_host hM _)) rfl
    (congrArg (· >>= fun l => pure (l.foldl (hashSetInsert eq) [])) (readIndexedSeq_host hM ..))
    (skipIndexedSeq_host hM _) (skipIndexedSeq_host hM _)
    (congrArg Rd.discard (readIndexedSeq_host hM ..))

variable {cfg : Cfg} {ι : Type} {E : Env ι}

theorem fixedOf_host (hM : M.bits = 64) (t : Ty ι) : M.fixedOf cfg E t = Revision.fixedOf cfg E t := by
  cases t <;> try exact codec_host hM _
  rename_i k
  cases k <;> first | rfl | exact intC_host hM _

theorem bulkOf_host (hM : M.bits = 64) (t : Ty ι) : M.bulkOf cfg E t = Revision.bulkOf cfg E t := by
  cases t <;> try exact codec_host hM _
  rename_i t
  show M.vecOf _ E t (M.codec cfg E t) = Revision.vecOf _ E t (t.codec cfg E)
  rw [codec_host hM, vecOf_host hM]

theorem indexedOf_host (hM : M.bits = 64) (t : Ty ι)
    (h : M.checks = true ∨ ∀ k v, t ≠ .btreeMap k v ∧ t ≠ .hashMap k v) :
    M.indexedOf cfg E t = Revision.indexedOf cfg E t := by
  cases t <;> try exact codec_host hM _
  case btreeMap k v =>
    have hc := h.resolve_right fun h => (h k v).1 rfl
    simp only [indexedOf, Revision.indexedOf, codec_host hM, indexedBTreeMapC_host hM hc]
  case hashMap k v =>
    have hc := h.resolve_right fun h => (h k v).2 rfl
    simp only [indexedOf, Revision.indexedOf, codec_host hM, indexedHashMapC_host hM hc]
  all_goals simp only [indexedOf, Revision.indexedOf, codec_host hM, indexedSeqC_host hM, indexedBTreeSetC_host hM,
    indexedHashSetC_host hM]

end

section
variable {ι : Type} {K : ι → Kind} [DecidableEq ι] {M : Machine} {cfg : Cfg} {I : Impls K} {n : Nat}
  {c : (i : ι) → Codec (Values K n i)}

omit [DecidableEq ι] in
theorem _root_.Revision.FieldDecl.same {V : Type} {f g : FieldDecl V} (h1 : f.name = g.name) (h2 : f.opts = g.opts)
    (h3 : f.plain = g.plain) (h4 : f.fixedLe = g.fixedLe) (h5 : f.bulk = g.bulk) (h6 : f.indexed = g.indexed)
    (h7 : f.dflt = g.dflt) (h8 : f.convert = g.convert) : f = g := by
  cases f; cases g; simp_all

theorem decl_host (hM : M.bits = 64) (f : Field K) (h : M.checks = true ∨ f.NoIndexedMap) :
    M.decl cfg I n c f = f.decl cfg I n c := by
  refine FieldDecl.same rfl rfl (congrArg (dynC (E := I.env n c) f.ty) (codec_host hM f.ty))
    (congrArg (dynC (E := I.env n c) f.ty) (fixedOf_host hM f.ty))
    (congrArg (dynC (E := I.env n c) f.ty) (bulkOf_host hM f.ty)) ?_ rfl rfl
  by_cases hi : (f.decl cfg I n c).isIndexed = true
  · refine (if_pos hi).trans (congrArg (dynC (E := I.env n c) f.ty) (indexedOf_host hM f.ty (h.imp id fun h => h hi)))
  · exact if_neg hi

theorem body_host (hM : M.bits = 64) (h : List Entry) : {k : Kind} → (b : Body K k) →
    (M.checks = true ∨ b.NoIndexedMaps) → M.body cfg I n c h b = b.codec cfg I n c h
  | _, .struct fs, hb => by
    refine congrArg (structC cfg h) (List.map_congr_left fun f hf => decl_host hM f (hb.imp id fun hb => hb f hf))
  | _, .enum vs, hb => by
    refine congrArg (enumC cfg h) (List.map_congr_left fun v hv => ?_)
    refine congrArg (fun fs => (⟨v.ident, v.opts, fs, v.convert n⟩ : VariantDecl (DynAt K n))) ?_
    exact List.map_congr_left fun f hf => decl_host hM f (hb.imp id fun hb => hb v hv f hf)
  | _, .foreign _, _ => rfl

end

theorem program_host {ι : Type} [DecidableEq ι] {M : Machine} (hM : M.bits = 64) (cfg : Cfg) (P : Program ι)
    (I : Impls P.kind) (hP : M.checks = true ∨ P.NoIndexedMaps) : ∀ (n : Nat) (i : ι),
    M.program cfg P I n i = P.codec cfg I n i
  | 0, _ => rfl
  | n + 1, i => by
    have ih := funext (program_host hM cfg P I hP n)
    unfold program
    rw [ih, body_host hM _ _ (hP.imp id fun h => h i)]
    rfl

/-! ### Two builds for a machine -/

/-- Two builds for machines of one width: `M` has overflow checks, or neither has. -/
structure Builds (M M' : Machine) : Prop where
  bits : M'.bits = M.bits
  checks : M.checks = true ∨ M'.checks = M.checks

theorem Builds.same {M M' : Machine} (h : Builds M M') : M' = ⟨M.bits, M'.checks⟩ := by
  rw [← h.bits]

section
variable {M M' : Machine}

theorem codec_build (h : Builds M M') {ι : Type} (cfg : Cfg) (E : Env ι) (t : Ty ι) : M'.codec cfg E t = M.codec cfg E t := by
  rw [h.same]; exact codec_bits _ _ M.checks cfg E t

theorem fixedOf_build (h : Builds M M') {ι : Type} (cfg : Cfg) (E : Env ι) (t : Ty ι) :
    M'.fixedOf cfg E t = M.fixedOf cfg E t := by
  rw [h.same]; exact fixedOf_bits _ _ M.checks cfg E t

theorem bulkOf_build (h : Builds M M') {ι : Type} (cfg : Cfg) (E : Env ι) (t : Ty ι) :
    M'.bulkOf cfg E t = M.bulkOf cfg E t := by
  rw [h.same]; exact bulkOf_bits _ _ M.checks cfg E t

theorem readVarint_build (h : Builds M M') : M'.readVarint = M.readVarint := by
  rw [h.same]; rfl

theorem checkedMul_build (h : Builds M M') (a b : Nat) (e : Err) : M'.checkedMul a b e = M.checkedMul a b e := by
  rw [h.same]; rfl

end

section
open Rd.Upto
variable {M M' : Machine} {L : Nat}

theorem add_upto (h : Builds M M') (a b : Nat) : (Rd.lift (M.add a b)).Upto False L (Rd.lift (M'.add a b)) := by
  have hb : M'.bits = M.bits := h.bits
  rcases h.checks with hc | hc
  · intro s _
    refine ⟨?_, fun x r e => by rw [(lift_run_ok.1 e).2]; exact Nat.le_refl _, nofun⟩
    unfold add
    rw [hb]
    by_cases hlt : a + b < 2 ^ M.bits
    · right; rw [if_pos hlt, if_pos hlt]
    · left; rw [if_neg hlt, if_pos hc]; rfl
  · have : M' = M := by cases M; cases M'; simp_all
    rw [this]
    exact refl (Rd.Eats.lift _)

theorem readIndexedMap_upto (h : Builds M M') {pre capK capV : Nat → Bool} {k k' : Rd κ} {v v' : Rd ν} {build}
    (hk : k.Upto False L k') (hv : v.Upto False L v') :
    (M.readIndexedMap pre capK capV k v build).Upto False L (M'.readIndexedMap pre capK capV k' v' build) := by
  unfold readIndexedMap
  simp only [readVarint_build h, checkedMul_build h]
  refine bind (refl (Rd.Eats.readByte.weaken (by omega))) fun flags =>
    bind (refl (readVarint_eats.weaken (by omega))) fun n => bind (refl (Rd.Eats.alloc _)) fun _ => ite ?_ ?_
  · exact bind (readN (bind hk fun _ => bind hv fun _ => refl (Rd.Eats.pure _)) n) fun _ => refl (Rd.Eats.pure _)
  · exact bind (refl (Rd.Eats.lift _)) fun _ => bind (add_upto h _ _) fun _ =>
      bind (refl ((Rd.Eats.advance _).weaken (by omega))) fun _ => bind (refl (Rd.Eats.alloc _)) fun _ =>
      bind (readN hk n) fun _ => bind (refl (Rd.Eats.alloc _)) fun _ => bind (readN hv n) fun _ =>
      refl (Rd.Eats.pure _)

theorem readIndexedSeq_upto (h : Builds M M') {cap : Nat → Bool} {c c' : Rd α} (hc : c.Upto False L c') :
    (M.readIndexedSeq cap c).Upto False L (M'.readIndexedSeq cap c') := by
  unfold readIndexedSeq
  simp only [readVarint_build h, checkedMul_build h]
  have key : ∀ n, (Rd.alloc (cap n) >>= fun _ => Rd.readN n c).Upto False L
      (Rd.alloc (cap n) >>= fun _ => Rd.readN n c') := fun n => bind (refl (Rd.Eats.alloc _)) fun _ => readN hc n
  exact bind (refl (Rd.Eats.readByte.weaken (by omega))) fun _ =>
    bind (refl (readVarint_eats.weaken (by omega))) fun n =>
      ite (key n) (bind (refl (Rd.Eats.lift _)) fun _ =>
        bind (refl ((Rd.Eats.advance _).weaken (by omega))) fun _ => key n)

end

section
open Rd.Upto
variable {ι : Type} {K : ι → Kind} [DecidableEq ι] {M M' : Machine} {cfg : Cfg} {I : Impls K} {n : Nat} {L : Nat}
  {c c' : (i : ι) → Codec (Values K n i)}

theorem decl_upto (h : Builds M M') (hc : ∀ i, (c i).dec.Upto False L (c' i).dec) (hw : ∀ i, (c' i).dec.Eats 1)
    (f : Field K) : (M.decl cfg I n c f).Upto False L (M'.decl cfg I n c' f) := by
  have ht := fun t : Ty ι => codec_upto (M := M) (E := I.env n c) (c' := c') cfg hc hw t
  have emb : ∀ (t : Ty ι) {a b : Codec (t.denote (Values K n))}, a.dec.Upto False L b.dec →
      (dynC (E := I.env n c) t a).dec.Upto False L (dynC (E := I.env n c') t b).dec :=
    fun t a b h => bind h fun _ => refl (Rd.Eats.pure _)
  rcases f with ⟨name, opts, t, dflt, convert⟩
  refine ⟨rfl, rfl, rfl, ?_, emb t ?_, emb t ?_, emb t ?_, ?_⟩
  · funext r v this
    exact (Field.decl_convert cfg I n c _ r v this).trans (Field.decl_convert cfg I n c' _ r v this).symm
  · show (M.codec cfg (I.env n c) t).dec.Upto False L (M'.codec cfg (I.env n c') t).dec
    rw [codec_build h]; exact ht t
  · show (M.fixedOf cfg (I.env n c) t).dec.Upto False L (M'.fixedOf cfg (I.env n c') t).dec
    rw [fixedOf_build h]
    have h := ht t
    cases t <;> try exact h
    rename_i k
    have hr : ∀ n : Nat, (fixedC n).dec.Upto False L (fixedC n).dec := fun n => refl ((readLE_eats _ _).weaken (by omega))
    cases k <;> first | exact hr 4 | exact hr 8 | exact hr 16 | exact h
  · show (M.bulkOf cfg (I.env n c) t).dec.Upto False L (M'.bulkOf cfg (I.env n c') t).dec
    rw [bulkOf_build h]
    have h := ht t
    cases t <;> try exact h
    rename_i t
    exact vecOf_upto (E := I.env n c) (c' := c') _ t (ht t)
  · have key : ∀ {N N' : Machine}, Builds N N' →
        (N.indexedOf cfg (I.env n c) t).dec.Upto False L (N'.indexedOf cfg (I.env n c') t).dec := by
      intro N N' h
      have h0 : ∀ t : Ty ι, (N.codec cfg (I.env n c) t).dec.Upto False L (N'.codec cfg (I.env n c') t).dec := fun t => by
        rw [codec_build h]; exact codec_upto (M := N) (E := I.env n c) (c' := c') cfg hc hw t
      cases t <;> try exact h0 _
      case vec t => exact readIndexedSeq_upto h (h0 t)
      case vector t => exact readIndexedSeq_upto h (h0 t)
      case btreeSet t => exact bind (readIndexedSeq_upto h (h0 t)) fun _ => refl (Rd.Eats.pure _)
      case hashSet t => exact bind (readIndexedSeq_upto h (h0 t)) fun _ => refl (Rd.Eats.pure _)
      case btreeMap k v => exact readIndexedMap_upto h (h0 k) (h0 v)
      case hashMap k v => exact readIndexedMap_upto h (h0 k) (h0 v)
    by_cases hi : (Field.decl cfg I n c ⟨name, opts, t, dflt, convert⟩).isIndexed = true
    · have hi' : (Field.decl cfg I n c' ⟨name, opts, t, dflt, convert⟩).isIndexed = true := hi
      have e : (M.decl cfg I n c ⟨name, opts, t, dflt, convert⟩).indexed =
        dynC (E := I.env n c) t (M.indexedOf cfg (I.env n c) t) := if_pos hi
      have e' : (M'.decl cfg I n c' ⟨name, opts, t, dflt, convert⟩).indexed =
        dynC (E := I.env n c') t (M'.indexedOf cfg (I.env n c') t) := if_pos hi'
      rw [e, e']
      exact emb t (key h)
    · have hi' : ¬ (Field.decl cfg I n c' ⟨name, opts, t, dflt, convert⟩).isIndexed = true := hi
      have e : (M.decl cfg I n c ⟨name, opts, t, dflt, convert⟩).indexed =
        dynC (E := I.env n c) t (Revision.indexedOf cfg (I.env n c) t) := if_neg hi
      have e' : (M'.decl cfg I n c' ⟨name, opts, t, dflt, convert⟩).indexed =
        dynC (E := I.env n c') t (Revision.indexedOf cfg (I.env n c') t) := if_neg hi'
      rw [e, e', ← indexedOf_host (M := host) rfl t (.inl rfl), ← indexedOf_host (M := host) rfl t (.inl rfl)]
      exact emb t (key ⟨rfl, .inl rfl⟩)

theorem body_upto (hB : Builds M M') (hc : ∀ i, (c i).dec.Upto False L (c' i).dec) (hw : ∀ i, (c' i).dec.Eats 1)
    (h : List Entry) : {k : Kind} → (b : Body K k) →
    (M.body cfg I n c h b).dec.Upto False L (M'.body cfg I n c' h b).dec
  | _, .struct fs => dispatch_upto cfg h fun e => deserializeStructBody_upto e _ fs fun f _ => decl_upto hB hc hw f
  | _, .enum vs => dispatch_upto cfg h fun e => deserializeEnumBody_upto cfg e _ vs (F := fun v => v.fields)
      fun v _ => ⟨rfl, rfl, rfl, rfl, rfl, fun f _ => decl_upto hB hc hw f⟩
  | _, .foreign x => Rd.Upto.refl (x.heavy.eats.weaken (by omega))

theorem body_eats (hB : Builds M M) (hw : ∀ i, (c i).dec.Eats 1) (h : List Entry) : {k : Kind} → (b : Body K k) →
    (M.body cfg I n c h b).dec.Eats 1
  | _, .struct fs => dispatch_eats cfg h fun e => Rd.Upto.eats (G := False) fun L =>
      deserializeStructBody_upto (L := L) e _ fs fun f _ => decl_upto hB (fun i => refl ((hw i).weaken (by omega))) hw f
  | _, .enum vs => dispatch_eats cfg h fun e => Rd.Upto.eats (G := False) fun L =>
      deserializeEnumBody_upto (L := L) cfg e _ vs (F := fun v => v.fields) fun v _ => ⟨rfl, rfl, rfl, rfl, rfl,
        fun f _ => decl_upto hB (fun i => refl ((hw i).weaken (by omega))) hw f⟩
  | _, .foreign x => x.heavy.eats

end

section
variable {ι : Type} [DecidableEq ι] {M M' : Machine}

theorem program_eats (hB : Builds M M) (cfg : Cfg) (P : Program ι) (I : Impls P.kind) :
    ∀ (n : Nat) (i : ι), (M.program cfg P I n i).dec.Eats 1
  | 0, _ => Rd.Eats.fail _ _
  | n + 1, i => body_eats hB (program_eats hB cfg P I n) (P.history i) (P.body i)

theorem program_upto (hB : Builds M M') (cfg : Cfg) (P : Program ι) (I : Impls P.kind) {L : Nat} :
    ∀ (n : Nat) (i : ι), (M.program cfg P I n i).dec.Upto False L (M'.program cfg P I n i).dec
  | 0, _ => Rd.Upto.refl (Rd.Eats.fail _ _)
  | n + 1, i => body_upto hB (program_upto hB cfg P I n)
      (program_eats ⟨rfl, .inr rfl⟩ cfg P I n) (P.history i) (P.body i)

end

/-! ### Skipping -/

section
variable {ι : Type} {M : Machine} {E : Env ι} {c' : (i : ι) → Codec (E.X i)}

theorem vecOf_skipEq (cfg : Cfg) (t : Ty ι) {c d : Codec (t.denote E.X)} (h : c.SkipEq d) :
    (M.vecOf cfg E t c).SkipEq (M.vecOf cfg { E with extC := c' } t d) := by
  have key : (M.vecC cfg (E.cap t) c).SkipEq (M.vecC cfg (E.cap t) d) :=
    ⟨by simp only [vecC, h.skip], by simp only [vecC, h.skipS]⟩
  cases t <;> simp only [vecOf] <;> try exact key
  all_goals
    split
    · exact ⟨rfl, rfl⟩
    · exact key

theorem collC_skipEq (cfg : Cfg) {cap : Nat → Bool} {c d : Codec α} {inv build} (h : c.SkipEq d) :
    (M.collC cfg cap c inv build).SkipEq (M.collC cfg cap d inv build) :=
  ⟨by simp only [collC, h.skip], by simp only [collC, h.skipS]⟩

theorem codec_skipEq (cfg : Cfg) (hx : ∀ i, (E.extC i).SkipEq (c' i)) (t : Ty ι) :
    (M.codec cfg E t).SkipEq (M.codec cfg { E with extC := c' } t) := by
  induction t with
  | unit | bool | int | float | char | string | bytes | uuid | duration | systemTime | notNan | path => exact ⟨rfl, rfl⟩
  | option t ih => exact ⟨by simp only [codec, optionC, ih.skip], by simp only [codec, optionC, ih.skipS]⟩
  | result t e iht ihe =>
    exact ⟨by simp only [codec, resultC, iht.skip, ihe.skip], by simp only [codec, resultC, iht.skipS, ihe.skipS]⟩
  | bound t ih => exact ⟨by simp only [codec, boundC, ih.skip], by simp only [codec, boundC, ih.skipS]⟩
  | wrap t ih => exact ⟨ih.skip, ih.skipS⟩
  | pair s t ihs iht => exact pairC_skipEq ihs iht
  | array n t ih => exact ⟨by simp only [codec, arrayC, ih.skip], by simp only [codec, arrayC, ih.skipS]⟩
  | vec t ih => exact vecOf_skipEq cfg t ih
  | btreeMap k v ihk ihv | hashMap k v ihk ihv => exact collC_skipEq cfg (pairC_skipEq ihk ihv)
  | btreeSet t ih | hashSet t ih | binaryHeap t ih | vector t ih => exact collC_skipEq cfg ih
  | ext i => exact hx i

end

section
variable {ι : Type} {K : ι → Kind} [DecidableEq ι] {M M' : Machine} {cfg : Cfg} {I : Impls K} {n : Nat}
  {c c' : (i : ι) → Codec (Values K n i)}

theorem decl_skips (h : Builds M M') (hc : ∀ i, (c i).SkipEq (c' i)) (f : Field K) :
    (M.decl cfg I n c f).legacySkip = (M'.decl cfg I n c' f).legacySkip ∧
    (M.decl cfg I n c f).legacySkipS = (M'.decl cfg I n c' f).legacySkipS := by
  have hp := codec_skipEq (M := M) (E := I.env n c) (c' := c') cfg hc f.ty
  have hfx : (M.fixedOf cfg (I.env n c) f.ty).skip = (M.fixedOf cfg (I.env n c') f.ty).skip := by
    have hp := hp.skip
    generalize f.ty = t at hp
    cases t <;> try exact hp
    rename_i k
    cases k <;> first | exact hp | rfl
  have e1 : (M.decl cfg I n c f).plain.skip = (M'.decl cfg I n c' f).plain.skip := by
    show (M.codec cfg (I.env n c) f.ty).skip = (M'.codec cfg (I.env n c') f.ty).skip
    rw [codec_build h]; exact hp.skip
  have e2 : (M.decl cfg I n c f).plain.skipS = (M'.decl cfg I n c' f).plain.skipS := by
    show (M.codec cfg (I.env n c) f.ty).skipS = (M'.codec cfg (I.env n c') f.ty).skipS
    rw [codec_build h]; exact hp.skipS
  have e3 : (M.decl cfg I n c f).fixedLe.skip = (M'.decl cfg I n c' f).fixedLe.skip := by
    show (M.fixedOf cfg (I.env n c) f.ty).skip = (M'.fixedOf cfg (I.env n c') f.ty).skip
    rw [fixedOf_build h]; exact hfx
  have e4 : (M.decl cfg I n c f).opts = (M'.decl cfg I n c' f).opts := rfl
  unfold FieldDecl.legacySkip FieldDecl.legacySkipS
  rw [e1, e2, e3, e4]
  exact ⟨rfl, rfl⟩

theorem body_skipEq (hB : Builds M M') (hu : ∀ i, (c i).dec.Upto False 0 (c' i).dec) (hw : ∀ i, (c' i).dec.Eats 1)
    (hc : ∀ i, (c i).SkipEq (c' i)) (h : List Entry) : {k : Kind} → (b : Body K k) →
    (M.body cfg I n c h b).SkipEq (M'.body cfg I n c' h b)
  | _, .struct fs => by
    have hup : ∀ f ∈ fs, (M.decl cfg I n c f).Upto False 0 (M'.decl cfg I n c' f) := fun f _ => decl_upto hB hu hw f
    refine ⟨?_, ?_⟩
    · simp only [body, structC, skipStructBody, skipFields_map fs hup fun f _ => (decl_skips hB hc f).1]
    · simp only [body, structC, skipSStructBody, skipFields_map fs hup fun f _ => (decl_skips hB hc f).2]
  | _, .enum vs => by
    have hup : ∀ v ∈ vs, (M.variant cfg I n c v).Upto False 0 v.fields (fun f : Field K => M.decl cfg I n c f)
        (fun f => M'.decl cfg I n c' f) (M'.variant cfg I n c' v) := fun v _ =>
      ⟨rfl, rfl, rfl, rfl, rfl, fun f _ => decl_upto hB hu hw f⟩
    refine ⟨?_, ?_⟩
    · simp only [body, enumC, skipEnumBody_map cfg _ _ vs hup fun v _ f _ => (decl_skips hB hc f).1]
    · simp only [body, enumC, skipEnumBody_map cfg _ _ vs hup fun v _ f _ => (decl_skips hB hc f).2]
  | _, .foreign _ => ⟨rfl, rfl⟩

end

theorem program_skipEq {ι : Type} [DecidableEq ι] {M M' : Machine} (hB : Builds M M') (cfg : Cfg) (P : Program ι)
    (I : Impls P.kind) : ∀ (n : Nat) (i : ι), (M.program cfg P I n i).SkipEq (M'.program cfg P I n i)
  | 0, _ => ⟨rfl, rfl⟩
  | n + 1, i => body_skipEq hB (program_upto hB cfg P I n) (program_eats ⟨rfl, .inr rfl⟩ cfg P I n)
      (program_skipEq hB cfg P I n) (P.history i) (P.body i)

/-! ### Programs without indexed maps -/

section
variable {ι : Type} {K : ι → Kind} [DecidableEq ι] {cfg : Cfg} {I : Impls K} {n : Nat}
  {c : (i : ι) → Codec (Values K n i)} {B : Nat} {x y : Bool}

theorem indexedOf_bits {ι : Type} (cfg : Cfg) (E : Env ι) (t : Ty ι) (h : ∀ k v, t ≠ .btreeMap k v ∧ t ≠ .hashMap k v) :
    (⟨B, x⟩ : Machine).indexedOf cfg E t = (⟨B, y⟩ : Machine).indexedOf cfg E t := by
  cases t <;> try exact codec_bits B x y cfg E _
  case btreeMap k v => exact absurd rfl (h k v).1
  case hashMap k v => exact absurd rfl (h k v).2
  all_goals
    simp only [indexedOf, codec_bits B x y]
    rfl

theorem decl_bits (f : Field K) (h : f.NoIndexedMap) :
    (⟨B, x⟩ : Machine).decl cfg I n c f = (⟨B, y⟩ : Machine).decl cfg I n c f := by
  refine FieldDecl.same rfl rfl (congrArg (dynC (E := I.env n c) f.ty) (codec_bits B x y _ _ f.ty))
    (congrArg (dynC (E := I.env n c) f.ty) (fixedOf_bits B x y _ _ f.ty))
    (congrArg (dynC (E := I.env n c) f.ty) (bulkOf_bits B x y _ _ f.ty)) ?_ rfl rfl
  by_cases hi : (f.decl cfg I n c).isIndexed = true
  · refine (if_pos hi).trans (.trans (congrArg (dynC (E := I.env n c) f.ty) (indexedOf_bits (y := y) _ _ f.ty (h hi))) ?_)
    exact (if_pos hi).symm
  · exact (if_neg hi).trans (if_neg hi).symm

theorem body_bits (h : List Entry) : {k : Kind} → (b : Body K k) → b.NoIndexedMaps →
    (⟨B, x⟩ : Machine).body cfg I n c h b = (⟨B, y⟩ : Machine).body cfg I n c h b
  | _, .struct _, hb => congrArg (structC cfg h) (List.map_congr_left fun f hf => decl_bits f (hb f hf))
  | _, .enum vs, hb => by
    refine congrArg (enumC cfg h) (List.map_congr_left fun v hv => ?_)
    refine congrArg (fun fs => (⟨v.ident, v.opts, fs, v.convert n⟩ : VariantDecl (DynAt K n))) ?_
    exact List.map_congr_left fun f hf => decl_bits f (hb v hv f hf)
  | _, .foreign _, _ => rfl

end

theorem program_bits {ι : Type} [DecidableEq ι] (B : Nat) (x y : Bool) (cfg : Cfg) (P : Program ι) (I : Impls P.kind)
    (hP : P.NoIndexedMaps) (n : Nat) (i : ι) :
    (⟨B, x⟩ : Machine).program cfg P I n i = (⟨B, y⟩ : Machine).program cfg P I n i := by
  induction n generalizing i with
  | zero => rfl
  | succ n ih =>
    have ih : (⟨B, x⟩ : Machine).program cfg P I n = (⟨B, y⟩ : Machine).program cfg P I n := funext ih
    unfold program
    rw [ih, body_bits _ _ (hP i)]

/-! ### The request for the offset table -/

/-- The sum `table_bytes + 8` overflows for one length only. -/
theorem table_sum {B n : Nat} (hB : 3 ≤ B) (h : n * 8 < 2 ^ B) (hn : n ≠ 2 ^ (B - 3) - 1) : n * 8 + 8 < 2 ^ B := by
  have e : 2 ^ B = 2 ^ (B - 3) * 8 := by
    rw [show B = B - 3 + 3 by omega, Nat.pow_add]; simp
  have := Nat.two_pow_pos (B - 3)
  omega

theorem readIndexedMap_builds {B : Nat} (hB : 3 ≤ B) (pre capK capV : Nat → Bool) (k : Rd κ) (v : Rd ν) (build)
    (s : Bytes) (hs : ∀ flags t r, s = flags :: t → (⟨B, true⟩ : Machine).readVarint t ≠ .ok (2 ^ (B - 3) - 1, r)) :
    (⟨B, false⟩ : Machine).readIndexedMap pre capK capV k v build s =
      (⟨B, true⟩ : Machine).readIndexedMap pre capK capV k v build s := by
  unfold readIndexedMap
  cases s with
  | nil => rfl
  | cons flags t =>
    have hf : Rd.readByte (flags :: t) = .ok (flags, t) := rfl
    rw [Rd.bind_of_ok hf, Rd.bind_of_ok hf]
    have he : (⟨B, false⟩ : Machine).readVarint = (⟨B, true⟩ : Machine).readVarint := rfl
    rw [he]
    cases hv : (⟨B, true⟩ : Machine).readVarint t with
    | err e => rw [Rd.bind_of_err hv, Rd.bind_of_err hv]
    | panic => rw [Rd.bind_of_panic hv, Rd.bind_of_panic hv]
    | ok p =>
      obtain ⟨n, r⟩ := p
      rw [Rd.bind_of_ok hv, Rd.bind_of_ok hv]
      have hn : n ≠ 2 ^ (B - 3) - 1 := fun h => hs flags t r rfl (h ▸ hv)
      by_cases hlt : n * 8 < 2 ^ B
      · have e : ∀ c, (⟨B, c⟩ : Machine).checkedMul n 8 .overrun = .ok (n * 8) := fun c => if_pos hlt
        have e' : ∀ c, (⟨B, c⟩ : Machine).add (n * 8) 8 = .ok (n * 8 + 8) := fun c => if_pos (table_sum hB hlt hn)
        simp only [e]
        have l : ∀ {β : Type} (f : Nat → Rd β) (x : Nat), (Rd.lift (.ok x) >>= f) = f x := fun f x => rfl
        simp only [l, e']
      · have e : ∀ c, (⟨B, c⟩ : Machine).checkedMul n 8 .overrun = .err .overrun := fun c => if_neg hlt
        have l : ∀ {β : Type} (f : Nat → Rd β), (Rd.lift (.err .overrun) >>= f) = Rd.fail .overrun := fun f => rfl
        simp only [e, l]

/-! ### Types without numbers of the machine's width -/

section
variable {ι : Type} {E : Env ι}

theorem codec_free (M : Machine) (cfg : Cfg) (t : Ty ι) (ht : t.usizeFree = true) : M.codec cfg E t = t.codec cfg E := by
  induction t with
  | unit | bool | float | char | uuid | duration | systemTime | notNan | ext => rfl
  | int k => cases k <;> first | rfl | cases ht
  | string | path | bytes | vec | btreeMap | btreeSet | hashMap | hashSet | binaryHeap | vector => cases ht
  | option t ih => simp only [codec, Ty.codec, ih ht]
  | bound t ih => simp only [codec, Ty.codec, ih ht]
  | wrap t ih => simp only [codec, Ty.codec, ih ht]
  | array n t ih => simp only [codec, Ty.codec, ih ht]
  | result t e iht ihe =>
    simp only [Ty.usizeFree, Bool.and_eq_true] at ht
    simp only [codec, Ty.codec, iht ht.1, ihe ht.2]
  | pair t e iht ihe =>
    simp only [Ty.usizeFree, Bool.and_eq_true] at ht
    simp only [codec, Ty.codec, iht ht.1, ihe ht.2]

theorem fixedOf_free (M : Machine) (cfg : Cfg) (t : Ty ι) (ht : t.usizeFree = true) :
    M.fixedOf cfg E t = Revision.fixedOf cfg E t := by
  have h := codec_free (E := E) M cfg t ht
  cases t <;> try exact h
  rename_i k
  cases k <;> first | rfl | cases ht

theorem bulkOf_free (M : Machine) (cfg : Cfg) (t : Ty ι) (ht : t.usizeFree = true) :
    M.bulkOf cfg E t = Revision.bulkOf cfg E t := by
  have h := codec_free (E := E) M cfg t ht
  cases t <;> first | exact h | cases ht

theorem indexedOf_free (M : Machine) (cfg : Cfg) (t : Ty ι) (ht : t.usizeFree = true) :
    M.indexedOf cfg E t = Revision.indexedOf cfg E t := by
  have h := codec_free (E := E) M cfg t ht
  cases t <;> first | exact h | cases ht

end

section
variable {ι : Type} {K : ι → Kind} [DecidableEq ι] {M : Machine} {cfg : Cfg} {I : Impls K} {n : Nat}
  {c : (i : ι) → Codec (Values K n i)}

theorem decl_free (f : Field K) (h : f.ty.usizeFree = true) : M.decl cfg I n c f = f.decl cfg I n c := by
  refine FieldDecl.same rfl rfl (congrArg (dynC (E := I.env n c) f.ty) (codec_free M cfg f.ty h))
    (congrArg (dynC (E := I.env n c) f.ty) (fixedOf_free M cfg f.ty h))
    (congrArg (dynC (E := I.env n c) f.ty) (bulkOf_free M cfg f.ty h)) ?_ rfl rfl
  by_cases hi : (f.decl cfg I n c).isIndexed = true
  · exact (if_pos hi).trans (congrArg (dynC (E := I.env n c) f.ty) (indexedOf_free M cfg f.ty h))
  · exact if_neg hi

theorem body_free (h : List Entry) : {k : Kind} → (b : Body K k) → (∀ t ∈ b.types, t.usizeFree = true) →
    M.body cfg I n c h b = b.codec cfg I n c h
  | _, .struct fs, hb => congrArg (structC cfg h) (List.map_congr_left fun f hf =>
      decl_free f (hb _ (List.mem_map_of_mem hf)))
  | _, .enum vs, hb => by
    refine congrArg (enumC cfg h) (List.map_congr_left fun v hv => ?_)
    refine congrArg (fun fs => (⟨v.ident, v.opts, fs, v.convert n⟩ : VariantDecl (DynAt K n))) ?_
    exact List.map_congr_left fun f hf => decl_free f (hb _ (List.mem_flatMap.2 ⟨v, hv, List.mem_map_of_mem hf⟩))
  | _, .foreign _, _ => rfl

end

theorem program_free {ι : Type} [DecidableEq ι] (M : Machine) (cfg : Cfg) (P : Program ι) (I : Impls P.kind)
    (hP : ∀ i, ∀ t ∈ (P.body i).types, t.usizeFree = true) : ∀ (n : Nat) (i : ι),
    M.program cfg P I n i = P.codec cfg I n i
  | 0, _ => rfl
  | n + 1, i => by
    have ih := funext (program_free M cfg P I hP n)
    unfold program
    rw [ih, body_free _ _ (hP i)]
    rfl

end Machine

end Revision
