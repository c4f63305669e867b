import Verif.Model.Machine
import Verif.Proofs.Features
import Verif.Proofs.Value
import Verif.Proofs.MapWalk

/-! Helper lemmas: the bytes written do not depend on the machine, and the machine of the rest of the
model. -/

namespace Revision

namespace Machine

/-! ### Writing -/

section
variable {M : Machine} {cfg : Cfg} {ι : Type} {E : Env ι} {c' : (i : ι) → Codec (E.X i)}

theorem vecOf_enc (t : Ty ι) {c d : Codec (t.denote E.X)} (h : c.enc = d.enc) :
    (M.vecOf cfg E t c).enc = (Revision.vecOf cfg { E with extC := c' } t d).enc := by
  have hs : ∀ (cap cap' : Nat → Bool), (M.vecC cfg cap c).enc = (Revision.vecC cfg cap' d).enc := by
    intro cap cap'
    unfold vecC Revision.vecC
    simp only [h]
  cases t with
  | bool =>
    show (if cfg.specialised = true then _ else _ : Codec _).enc = (if cfg.specialised = true then _ else _ : Codec _).enc
    split
    · rfl
    · exact hs _ _
  | int k =>
    show (if (cfg.specialised && k != .usize && k != .isize) = true then _ else _ : Codec _).enc =
      (if (cfg.specialised && k != .usize && k != .isize) = true then _ else _ : Codec _).enc
    split
    · rfl
    · exact hs _ _
  | float f =>
    show (if cfg.specialised = true then _ else _ : Codec _).enc = (if cfg.specialised = true then _ else _ : Codec _).enc
    split
    · rfl
    · exact hs _ _
  | uuid =>
    show (if cfg.specialised = true then _ else _ : Codec _).enc = (if cfg.specialised = true then _ else _ : Codec _).enc
    split
    · rfl
    · exact hs _ _
  | _ => exact hs _ _

theorem codec_enc (hx : ∀ i, (E.extC i).enc = (c' i).enc) (t : Ty ι) :
    (M.codec cfg E t).enc = (t.codec cfg { E with extC := c' }).enc := by
  have pairs : ∀ {a a' b b' : Res Bytes}, a = a' → b = b' →
      (do let x ← a; let y ← b; pure (x ++ y) : Res Bytes) = (do let x ← a'; let y ← b'; pure (x ++ y)) := by
    intro a a' b b' h h'; rw [h, h']
  induction t with
  | unit | bool | int | float | char | string | path | bytes | uuid | duration | systemTime | notNan => rfl
  | ext i => exact hx i
  | option t ih =>
    funext v
    cases v with
    | none => rfl
    | some a => exact congrArg (fun r : Res Bytes => do let b ← r; pure (encInt cfg .u8 1 ++ b)) (congrFun ih a)
  | result t e ih ih' =>
    funext v
    cases v with
    | ok a => exact congrArg (fun r : Res Bytes => do let b ← r; pure (encU32 cfg 0 ++ b)) (congrFun ih a)
    | error a => exact congrArg (fun r : Res Bytes => do let b ← r; pure (encU32 cfg 1 ++ b)) (congrFun ih' a)
  | bound t ih =>
    funext v
    cases v with
    | unbounded => rfl
    | included a => exact congrArg (fun r : Res Bytes => do let b ← r; pure (encU32 cfg 1 ++ b)) (congrFun ih a)
    | excluded a => exact congrArg (fun r : Res Bytes => do let b ← r; pure (encU32 cfg 2 ++ b)) (congrFun ih a)
  | wrap t ih => exact ih
  | pair s t ih ih' =>
    funext v
    exact pairs (congrFun ih _) (congrFun ih' _)
  | array n t ih =>
    funext l
    exact congrArg (fun e => encList e l) ih
  | vec t ih => exact vecOf_enc t ih
  | btreeMap k v ih ih' | hashMap k v ih ih' =>
    refine encSeq_congr (fw := cfg.fixedWidth) (sp := cfg.specialised) (sp' := cfg.specialised) ?_
    funext p
    exact pairs (congrFun ih _) (congrFun ih' _)
  | btreeSet t ih | hashSet t ih | binaryHeap t ih | vector t ih =>
    exact encSeq_congr (fw := cfg.fixedWidth) (sp := cfg.specialised) (sp' := cfg.specialised) ih

theorem fixedOf_enc (hx : ∀ i, (E.extC i).enc = (c' i).enc) (t : Ty ι) :
    (M.fixedOf cfg E t).enc = (Revision.fixedOf cfg { E with extC := c' } t).enc := by
  cases t with
  | int k => cases k <;> rfl
  | unit => rfl
  | _ => exact codec_enc hx _

theorem bulkOf_enc (hx : ∀ i, (E.extC i).enc = (c' i).enc) (t : Ty ι) :
    (M.bulkOf cfg E t).enc = (Revision.bulkOf cfg { E with extC := c' } t).enc := by
  cases t with
  | vec t => exact vecOf_enc (cfg := ⟨cfg.fixedWidth, true⟩) t (codec_enc hx t)
  | unit => rfl
  | _ => exact codec_enc hx _

theorem indexedOf_enc (hx : ∀ i, (E.extC i).enc = (c' i).enc) (t : Ty ι) :
    (M.indexedOf cfg E t).enc = (Revision.indexedOf cfg { E with extC := c' } t).enc := by
  cases t with
  | unit => rfl
  | vec t | vector t => exact congrArg (fun e => serializeIndexedSeq e) (codec_enc hx t)
  | btreeSet t | hashSet t => exact congrArg (fun e => serializeIndexedSet e) (codec_enc hx t)
  | btreeMap k v | hashMap k v =>
    have h1 := codec_enc (M := M) (cfg := cfg) hx k
    have h2 := codec_enc (M := M) (cfg := cfg) hx v
    show serializeIndexedEntries _ _ = serializeIndexedEntries _ _
    rw [h1, h2]
  | _ => exact codec_enc hx _

end

section
variable {M : Machine} {cfg : Cfg} {ι : Type} {K : ι → Kind} [DecidableEq ι] {I : Impls K} {n : Nat}
  {x y : (i : ι) → Codec (Values K n i)}

theorem wire_enc (hx : ∀ i, (x i).enc = (y i).enc) (f : Field K) (e : Entry) :
    ((M.decl cfg I n x f).wire e).enc = ((f.decl cfg I n y).wire e).enc ∧
    ((M.decl cfg I n x f).variantWire e).enc = ((f.decl cfg I n y).variantWire e).enc := by
  have hx' : ∀ i, ((I.env n x).extC i).enc = (y i).enc := hx
  have hp : (M.decl cfg I n x f).plain.enc = (f.decl cfg I n y).plain.enc := dynC_enc_congr f.ty (codec_enc hx' f.ty)
  have hl : (M.decl cfg I n x f).legacyC.enc = (f.decl cfg I n y).legacyC.enc := by
    unfold FieldDecl.legacyC
    show (if f.opts.fixed then _ else if f.opts.specialised then _ else _ : Codec _).enc =
      (if f.opts.fixed then _ else if f.opts.specialised then _ else _ : Codec _).enc
    split
    · exact dynC_enc_congr f.ty (fixedOf_enc hx' f.ty)
    · split
      · exact dynC_enc_congr f.ty (bulkOf_enc hx' f.ty)
      · exact hp
  have ho : (M.decl cfg I n x f).optimisedC.enc = (f.decl cfg I n y).optimisedC.enc := by
    unfold FieldDecl.optimisedC
    show (if (f.decl cfg I n x).isIndexed then _ else _ : Codec _).enc =
      (if (f.decl cfg I n x).isIndexed then _ else _ : Codec _).enc
    split
    · rename_i h
      have e : (M.decl cfg I n x f).indexed = dynC (E := I.env n x) f.ty (M.indexedOf cfg (I.env n x) f.ty) := if_pos h
      rw [e]
      exact dynC_enc_congr f.ty (indexedOf_enc hx' f.ty)
    · exact hp
  constructor
  · unfold FieldDecl.wire
    split
    · exact ho
    · exact hl
  · unfold FieldDecl.variantWire
    split
    · exact hp
    · exact hl

theorem variant_sig (v : Variant K) : (M.variant cfg I n x v).sig = (v.decl cfg I n y).sig := by
  simp only [variant, Variant.decl, VariantDecl.sig, List.map_map]
  rfl

theorem body_enc (hx : ∀ i, (x i).enc = (y i).enc) {h : List Entry} {k : Kind} (B : Body K k) :
    (M.body cfg I n x h B).enc = (B.codec cfg I n y h).enc := by
  cases B with
  | struct fs =>
    funext vs
    have := serializeStructBody_pair (d := fun f : Field K => M.decl cfg I n x f)
        (d' := fun f => f.decl cfg I n y) (e := lastEntry h) fs
      (fun _ _ => rfl) (fun f _ _ => (wire_enc hx f _).1) vs
    exact congrArg (fun r : Res Bytes => do let b ← r; pure (encU16 cfg (latest h) ++ b)) this
  | enum us =>
    funext z
    refine congrArg (fun r : Res Bytes => do let b ← r; pure (encU16 cfg (latest h) ++ b)) ?_
    obtain ⟨l, hl, h1, h2⟩ := variantArms_pair (e := M.variant cfg I n x) (e' := (·.decl cfg I n y)) us
      (fun v _ => variant_sig v) (lastEntry h).revision
    unfold serializeEnumBody
    rw [h1, h2, List.find?_map, List.find?_map]
    have hp : ((fun a : Nat × VariantDecl (DynAt K n) => a.2.ident == z.variant) ∘
        fun a : Nat × Variant K => (a.1, M.variant cfg I n x a.2)) = fun a => a.2.ident == z.variant := rfl
    have hp' : ((fun a : Nat × VariantDecl (DynAt K n) => a.2.ident == z.variant) ∘
        fun a : Nat × Variant K => (a.1, a.2.decl cfg I n y)) = fun a => a.2.ident == z.variant := rfl
    rw [hp, hp']
    cases ha : l.find? (fun a => a.2.ident == z.variant) with
    | none => rfl
    | some a =>
      have := serializeFields_pair (d := fun f : Field K => M.decl cfg I n x f)
        (d' := fun f => f.decl cfg I n y)
        (enc := fun f w => (f.variantWire (lastEntry h)).enc w) (enc' := fun f w => (f.variantWire (lastEntry h)).enc w)
        (r := (lastEntry h).revision) a.2.fields (fun _ _ => rfl)
        (fun f _ _ => (wire_enc hx f _).2) z.fields
      simp only [Option.map_some, Variant.decl, variant]
      rw [this]
  | foreign x => rfl

end

theorem program_enc {ι : Type} [DecidableEq ι] (M : Machine) (cfg : Cfg) (P : Program ι) (I : Impls P.kind) :
    ∀ n i, (M.program cfg P I n i).enc = (P.codec cfg I n i).enc
  | 0, _ => rfl
  | n + 1, i => body_enc (program_enc M cfg P I n) (P.body i)

/-! ### The machine of the rest of the model -/

theorem Rd.same {m m' : Rd α} (h : ∀ s, m s = m' s) : m = m' := by
  cases m; cases m'; congr; funext s; exact h s

theorem bind_id {m : Rd α} {f : α → α} (hf : ∀ a, f a = a) : (m >>= fun a => pure (f a)) = m := by
  refine Rd.same fun s => ?_
  cases hm : m s with
  | ok p => obtain ⟨a, r⟩ := p; rw [Rd.bind_of_ok hm, hf]; rfl
  | err e => rw [Rd.bind_of_err hm]
  | panic => rw [Rd.bind_of_panic hm]

section
variable {M : Machine} {cfg : Cfg}

theorem decInt_host (hM : M.bits = 64) (k : IntTy) : M.decInt cfg k = Revision.decInt cfg k := by
  cases k with
  | usize =>
    refine bind_id (m := Revision.decInt cfg .u64) fun v => ?_
    show BitVec.ofNat 64 (v.toNat % 2 ^ M.bits) = v
    rw [hM, Nat.mod_eq_of_lt v.isLt, BitVec.ofNat_toNat, BitVec.setWidth_eq]
  | isize =>
    refine bind_id (m := Revision.decInt cfg .i64) fun v => ?_
    show BitVec.ofInt 64 (v.toInt.bmod (2 ^ M.bits)) = v
    rw [hM, BitVec.toInt_bmod_cancel, BitVec.ofInt_toInt]
  | _ => rfl

theorem hasInt_host (hM : M.bits = 64) (k : IntTy) (v : BitVec k.bits) : M.hasInt k v := by
  cases k with
  | usize => show v.toNat < 2 ^ M.bits; rw [hM]; exact v.isLt
  | isize =>
    show -(2 ^ (M.bits - 1) : Int) ≤ v.toInt ∧ v.toInt < 2 ^ (M.bits - 1)
    rw [hM]
    exact ⟨BitVec.le_toInt v, BitVec.toInt_lt⟩
  | _ => trivial

theorem readLen_host (hM : M.bits = 64) : M.readLen cfg = Revision.readLen cfg := by
  unfold readLen Revision.readLen
  rw [decInt_host hM]

/-- Codecs with the same parts. -/
theorem Codec.same {c d : Codec α} (h1 : ∀ v, c.valid v ↔ d.valid v) (h2 : c.enc = d.enc) (h3 : c.dec = d.dec)
    (h4 : c.skip = d.skip) (h5 : c.skipS = d.skipS) (h6 : c.check = d.check) : c = d := by
  cases c; cases d
  simp only at h1 h2 h3 h4 h5 h6
  subst h2 h3 h4 h5 h6
  congr
  funext v
  exact propext (h1 v)

variable {α : Type} {c : Codec α}

theorem stringC_host (hM : M.bits = 64) (cap : Nat → Bool) : M.stringC cfg cap = Revision.stringC cfg cap := by
  have e : M.readBytes cfg cap = Revision.readBytes cfg cap := by
    unfold readBytes Revision.readBytes; rw [readLen_host hM]
  refine Codec.same (fun v => ?_) rfl ?_ ?_ ?_ ?_
  · show (strBytes v).length < 2 ^ M.bits ∧ bytesFit cap (strBytes v) ↔ bytesFit cap (strBytes v)
    rw [hM]
    exact ⟨fun h => h.2, fun h => ⟨h.1, h⟩⟩
  · unfold stringC Revision.stringC; simp only [e]
  · unfold stringC Revision.stringC skipBytes Revision.skipBytes; simp only [readLen_host hM]
  · unfold stringC Revision.stringC skipBytesS Revision.skipBytesS; simp only [readLen_host hM]
  · unfold stringC Revision.stringC; simp only [e]

theorem bytesC_host (hM : M.bits = 64) (cap : Nat → Bool) : M.bytesC cfg cap = Revision.bytesC cfg cap := by
  have e : M.readBytes cfg cap = Revision.readBytes cfg cap := by
    unfold readBytes Revision.readBytes; rw [readLen_host hM]
  refine Codec.same (fun v => ?_) rfl e ?_ ?_ ?_
  · show v.length < 2 ^ M.bits ∧ bytesFit cap v ↔ bytesFit cap v
    rw [hM]
    exact ⟨fun h => h.2, fun h => ⟨h.1, h⟩⟩
  · unfold bytesC Revision.bytesC skipBytes Revision.skipBytes; simp only [readLen_host hM]
  · unfold bytesC Revision.bytesC skipBytesS Revision.skipBytesS; simp only [readLen_host hM]
  · unfold bytesC Revision.bytesC; simp only [e]

theorem pathC_host (hM : M.bits = 64) (cap : Nat → Bool) : M.pathC cfg cap = Revision.pathC cfg cap := by
  unfold pathC Revision.pathC
  rw [stringC_host hM]
  congr
  funext p
  rw [hM]
  exact propext ⟨fun h => h.2, fun h => ⟨h.1.1, h⟩⟩

theorem vecC_host (hM : M.bits = 64) (cap : Nat → Bool) : M.vecC cfg cap c = Revision.vecC cfg cap c := by
  refine Codec.same (fun v => ?_) rfl ?_ ?_ ?_ ?_
  · show v.length < 2 ^ M.bits ∧ (Revision.vecC cfg cap c).valid v ↔ _
    rw [hM]
    exact ⟨fun h => h.2, fun h => ⟨h.1, h⟩⟩
  all_goals
    unfold vecC Revision.vecC
    simp only [readLen_host hM]

theorem boolsC_host (hM : M.bits = 64) (cap : Nat → Bool) : M.boolsC cfg cap = Revision.boolsC cfg cap := by
  refine Codec.same (fun v => ?_) rfl ?_ ?_ ?_ ?_
  · show v.length < 2 ^ M.bits ∧ (Revision.boolsC cfg cap).valid v ↔ _
    rw [hM]
    exact ⟨fun h => h.2, fun h => ⟨h.1, h⟩⟩
  all_goals
    unfold boolsC Revision.boolsC
    simp only [readLen_host hM]

theorem lift_checkedMul (hM : M.bits = 64) (n w : Nat) (e : Err) (f : Nat → Rd β) :
    (Rd.lift (M.checkedMul n w e) >>= f) = if n * w < 2 ^ 64 then f (n * w) else Rd.fail e := by
  unfold checkedMul
  rw [hM]
  split <;> rfl

theorem bulkC_host (hM : M.bits = 64) (cap : Nat → Bool) (W w : Nat) :
    M.bulkC cfg cap W w = Revision.bulkC cfg cap W w := by
  refine Codec.same (fun v => ?_) rfl ?_ ?_ ?_ ?_
  · show v.length < 2 ^ M.bits ∧ v.length * w < 2 ^ M.bits ∧ (Revision.bulkC cfg cap W w).valid v ↔ _
    rw [hM]
    exact ⟨fun h => h.2.2, fun h => ⟨h.1, h.2.1, h⟩⟩
  all_goals
    unfold bulkC Revision.bulkC
    simp only [readLen_host hM, lift_checkedMul hM]

theorem collC_host (hM : M.bits = 64) (cap : Nat → Bool) (inv : List α → Prop) (build : List α → List α) :
    M.collC cfg cap c inv build = Revision.collC cfg cap c inv build := by
  refine Codec.same (fun v => ?_) rfl ?_ ?_ ?_ ?_
  · show v.length < 2 ^ M.bits ∧ (Revision.collC cfg cap c inv build).valid v ↔ _
    rw [hM]
    exact ⟨fun h => h.2, fun h => ⟨h.1, h⟩⟩
  all_goals
    unfold collC Revision.collC
    simp only [readColl, Revision.readColl, readLen_host hM]

theorem intC_host (hM : M.bits = 64) (k : IntTy) : M.intC cfg k = Revision.intC cfg k := by
  unfold intC Revision.intC
  rw [decInt_host hM]
  congr
  funext v
  exact propext ⟨fun _ => trivial, fun _ => hasInt_host hM k v⟩

variable {ι : Type} {E : Env ι}

theorem vecOf_host (hM : M.bits = 64) (t : Ty ι) (c : Codec (t.denote E.X)) :
    M.vecOf cfg E t c = Revision.vecOf cfg E t c := by
  cases t <;> simp only [vecOf, Revision.vecOf, boolsC_host hM, bulkC_host hM, vecC_host hM]

theorem codec_host (hM : M.bits = 64) (t : Ty ι) : M.codec cfg E t = t.codec cfg E := by
  induction t with
  | _ =>
    simp only [codec, Ty.codec, intC_host hM, stringC_host hM, bytesC_host hM, pathC_host hM, vecOf_host hM, collC_host hM, *]
    try rfl

/-! ### Indexed collections -/

theorem readVarint_host (hM : M.bits = 64) : M.readVarint = Revision.readVarint := by
  refine Rd.same fun s => ?_
  unfold readVarint
  cases h : Revision.readVarint s with
  | ok p =>
    obtain ⟨n, r⟩ := p
    have hn : n < 2 ^ 64 := readVarint_yields s n r h
    rw [Rd.bind_of_ok h]
    show Rd.lift (M.tryUsize n) r = _
    rw [show M.tryUsize n = .ok n from if_pos (by rw [hM]; exact hn)]
    rfl
  | err e => rw [Rd.bind_of_err h]
  | panic => rw [Rd.bind_of_panic h]

theorem sliceVarint_host (hM : M.bits = 64) (s : Bytes) : M.sliceVarint s = Revision.sliceVarint s := by
  unfold sliceVarint
  cases h : Revision.sliceVarint s with
  | ok p =>
    obtain ⟨n, k⟩ := p
    have hn : n < 2 ^ 64 := (sliceVarint_ok h).1
    show (do let n ← M.tryUsize n; pure (n, k) : Res (Nat × Nat)) = _
    rw [show M.tryUsize n = .ok n from if_pos (by rw [hM]; exact hn)]
    rfl
  | err e => rfl
  | panic => rfl

theorem checkedMul_host (hM : M.bits = 64) (a b : Nat) (e : Err) : M.checkedMul a b e = Revision.checkedMul a b e := by
  unfold checkedMul Revision.checkedMul
  rw [hM]

theorem readIndexedSeq_host (hM : M.bits = 64) (cap : Nat → Bool) (m : Rd α) :
    M.readIndexedSeq cap m = Revision.readIndexedSeq cap m := by
  unfold readIndexedSeq Revision.readIndexedSeq
  simp only [readVarint_host hM, checkedMul_host hM]

theorem skipIndexedSeq_host (hM : M.bits = 64) (m : Rd Unit) : M.skipIndexedSeq m = Revision.skipIndexedSeq m := by
  unfold skipIndexedSeq Revision.skipIndexedSeq
  simp only [readVarint_host hM, checkedMul_host hM]

theorem add_host (hM : M.bits = 64) (hc : M.checks = true) (a b : Nat) : M.add a b = addU a b := by
  unfold add addU
  rw [hM, hc]
  rfl

variable {κ ν : Type} {k : Codec κ} {v : Codec ν}

theorem readIndexedMap_host (hM : M.bits = 64) (hc : M.checks = true) (pre capK capV : Nat → Bool) (k : Rd κ) (v : Rd ν)
    (build : List (κ × ν) → List (κ × ν)) :
    M.readIndexedMap pre capK capV k v build = Revision.readIndexedMap pre capK capV k v build := by
  unfold readIndexedMap Revision.readIndexedMap
  simp only [readVarint_host hM, checkedMul_host hM, add_host hM hc]

theorem skipIndexedMap_host (hM : M.bits = 64) (k v : Rd Unit) : M.skipIndexedMap k v = Revision.skipIndexedMap k v := by
  have key : ∀ {f g : Bytes → Rd Unit}, (∀ l r, l.length = 8 → f l r = g l r) → Rd.readExact 8 >>= f = Rd.readExact 8 >>= g := by
    intro f g h
    refine Rd.same fun s => ?_
    cases he : Rd.readExact 8 s with
    | ok p =>
      obtain ⟨l, r⟩ := p
      rw [Rd.bind_of_ok he, Rd.bind_of_ok he]
      refine h l r ?_
      have he : (if 8 ≤ s.length then Res.ok (s.take 8, s.drop 8) else .err .io) = .ok (l, r) := he
      split at he
      · simp only [Res.ok.injEq, Prod.mk.injEq] at he
        rw [← he.1, List.length_take]; omega
      · cases he
    | err e => rw [Rd.bind_of_err he, Rd.bind_of_err he]
    | panic => rw [Rd.bind_of_panic he, Rd.bind_of_panic he]
  unfold skipIndexedMap Revision.skipIndexedMap
  simp only [readVarint_host hM, checkedMul_host hM]
  congr
  funext flags
  congr
  funext len
  split
  · rfl
  · congr
    funext tb
    congr
    funext _
    refine key fun l r hl => ?_
    have h1 := leVal_lt (l.take 4)
    have h2 := leVal_lt (l.drop 4)
    rw [List.length_take, hl, show min 4 8 = 4 from rfl] at h1
    rw [List.length_drop, hl] at h2
    rw [show M.checkedAdd (leVal (l.take 4)) (leVal (l.drop 4)) .overrun = .ok _ from if_pos (by rw [hM]; omega)]
    rfl

end

end Machine

end Revision
