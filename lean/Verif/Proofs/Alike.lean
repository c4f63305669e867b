import Verif.Spec.Alike
import Verif.Proofs.Ty
import Verif.Proofs.ProgramLift

/-! # Lemmas on types with the same bytes -/

namespace Revision

variable {ι α β γ δ : Type}

theorem encList_map_mem {e : α → Res Bytes} {e' : β → Res Bytes} {f : α → β} :
    ∀ l : List α, (∀ a ∈ l, e' (f a) = e a) → encList e' (l.map f) = encList e l
  | [], _ => rfl
  | a :: l, h => by
    rw [List.map_cons, encList, encList, h a List.mem_cons_self,
      encList_map_mem l fun a ha => h a (List.mem_cons_of_mem _ ha)]

theorem encList_flat {e : α → Bytes} : ∀ l : List α, encList (fun a => .ok (e a)) l = .ok (l.flatMap e)
  | [] => rfl
  | a :: l => by rw [encList, encList_flat l]; rfl

/-- The length, then the elements. -/
def encSeq (cfg : Cfg) (enc : α → Res Bytes) (l : List α) : Res Bytes := do
  let b ← encList enc l
  pure (encLen cfg l.length ++ b)

theorem encSeq_map {cfg : Cfg} {e : α → Res Bytes} {e' : β → Res Bytes} {f : α → β} {l : List α}
    (h : ∀ a ∈ l, e' (f a) = e a) : encSeq cfg e' (l.map f) = encSeq cfg e l := by
  unfold encSeq
  rw [encList_map_mem l h, List.length_map]

theorem encSeq_ok {cfg : Cfg} {e : α → Bytes} (l : List α) :
    encSeq cfg (fun a => .ok (e a)) l = .ok (encLen cfg l.length ++ l.flatMap e) := by
  unfold encSeq
  rw [encList_flat]; rfl

theorem vec_enc {cfg : Cfg} {E : Env ι} {t : Ty ι} (h : t.Elementwise cfg) (l : List (t.denote E.X)) :
    (Ty.codec cfg E (.vec t)).enc l = encSeq cfg (t.codec cfg E).enc l := by
  rw [Ty.codec]
  cases t <;> try rfl
  · rcases h with h | h
    · unfold vecOf; rw [h]; rfl
    · exact absurd trivial h
  · rename_i k
    rcases h with h | h
    · unfold vecOf; rw [h]; rfl
    · cases k <;> first
        | (refine absurd ?_ h; exact ⟨by decide, by decide, by decide⟩)
        | (unfold vecOf; cases cfg.specialised <;> first | rfl | exact (encSeq_ok l).symm)
  · unfold vecOf
    cases cfg.specialised
    · rfl
    · exact (encSeq_ok l).symm
  · unfold vecOf
    cases cfg.specialised
    · rfl
    · exact (encSeq_ok l).symm

theorem coll_enc {cfg : Cfg} {cap : Nat → Bool} {c : Codec α} {inv : List α → Prop} {build : List α → List α} :
    (collC cfg cap c inv build).enc = encSeq cfg c.enc := rfl

/-- The bytes of a number of varying length. -/
def varBytes (n : Nat) : Bytes :=
  if n < 251 then [UInt8.ofNat n]
  else if n < 2 ^ 16 then 251 :: leBytes 2 n
  else if n < 2 ^ 32 then 252 :: leBytes 4 n
  else if n < 2 ^ 64 then 253 :: leBytes 8 n
  else 254 :: leBytes 16 n

theorem encodeU64_var (v : BitVec 64) : encodeU64 v = varBytes v.toNat := by
  unfold encodeU64 varBytes
  rw [if_pos (c := v.toNat < 2 ^ 64) v.isLt]

theorem encodeU128_var (v : BitVec 128) : encodeU128 v = varBytes v.toNat := rfl

/-- The number that is written for an integer. -/
def wireNat (k : IntTy) (n : Int) : Nat := if k.signed then zigzagSpec n else n.toNat

theorem encInt_var {cfg : Cfg} (hf : cfg.fixedWidth = false) {k : IntTy} (h8 : 16 ≤ k.bits) (v : BitVec k.bits) :
    encInt cfg k v = varBytes (wireNat k (k.value v)) := by
  unfold wireNat IntTy.value
  cases k <;> simp only [encInt, hf, IntTy.signed, Bool.false_eq_true, if_false, if_true, encodeU64_var, encodeU128_var]
  case u8 => exact absurd h8 (by decide)
  case i8 => exact absurd h8 (by decide)
  case u16 => congr 1
  case u32 => congr 1
  case u64 => rfl
  case usize => rfl
  case u128 => rfl
  case i16 => rw [zigzag_toNat (by decide), signExtend_toInt (by decide)]
  case i32 => rw [zigzag_toNat (by decide), signExtend_toInt (by decide)]
  case i64 => rw [zigzag_toNat (by decide)]
  case isize => rw [zigzag_toNat (by decide)]
  case i128 => rw [zigzag_toNat (by decide)]

theorem ofInt_toNat_of_nonneg {w n : Nat} (h : n < 2 ^ w) : (BitVec.ofInt w (n : Int)).toNat = n := by
  rw [BitVec.toNat_ofInt]
  have : ((n : Int) % ((2 ^ w : Nat) : Int)).toNat = n % 2 ^ w := by
    omega
  rw [this, Nat.mod_eq_of_lt h]

theorem ofInt_toInt {w w' : Nat} (v : BitVec w) (h0 : 0 < w) (h : w ≤ w') : (BitVec.ofInt w' v.toInt).toInt = v.toInt := by
  have h1 := BitVec.le_toInt v
  have h2 := BitVec.toInt_lt (x := v)
  have h3 : (2 : Int) ^ (w - 1) ≤ 2 ^ (w' - 1) := by
    have : 2 ^ (w - 1) ≤ 2 ^ (w' - 1) := Nat.pow_le_pow_right (by decide) (by omega)
    exact_mod_cast this
  have h4 : (2 : Int) ^ w' = 2 * 2 ^ (w' - 1) := by
    have := two_pow_pred (w := w') (by omega)
    exact_mod_cast this
  rw [BitVec.toInt_ofInt, Int.bmod_eq_of_le] <;> push_cast <;> omega

theorem value_ofInt {k k' : IntTy} (hw : k.bits ≤ k'.bits) (hs : k.signed = k'.signed) (v : BitVec k.bits) :
    k'.value (BitVec.ofInt k'.bits (k.value v)) = k.value v := by
  have h0 : 0 < k.bits := by cases k <;> decide
  unfold IntTy.value
  rw [← hs]
  cases k.signed with
  | true => exact ofInt_toInt v h0 hw
  | false =>
    simp only [Bool.false_eq_true, if_false]
    rw [ofInt_toNat_of_nonneg]
    exact Nat.lt_of_lt_of_le v.isLt (Nat.pow_le_pow_right (by decide) hw)

/-- The bytes of a number depend only on its value. -/
theorem encInt_value {cfg : Cfg} (hf : cfg.fixedWidth = false) {k k' : IntTy} (h8 : 16 ≤ k.bits) (hw : k.bits ≤ k'.bits)
    (hs : k.signed = k'.signed) (v : BitVec k.bits) : encInt cfg k' (BitVec.ofInt k'.bits (k.value v)) = encInt cfg k v := by
  rw [encInt_var hf (Nat.le_trans h8 hw), encInt_var hf h8, value_ofInt hw hs]
  unfold wireNat
  rw [hs]

theorem leBytes_one (b : UInt8) : leBytes 1 b.toBitVec.toNat = [b] := by
  have : b.toNat < 256 := b.toNat_lt
  show [UInt8.ofNat (b.toNat % 256)] = [b]
  rw [Nat.mod_eq_of_lt this, UInt8.ofNat_toNat]

theorem flatMap_byte (l : Bytes) : (l.map UInt8.toBitVec).flatMap (fun v => leBytes 1 v.toNat) = l := by
  induction l with
  | nil => rfl
  | cons a l ih => rw [List.map_cons, List.flatMap_cons, ih, leBytes_one]; rfl

theorem encLen_tag {cfg : Cfg} (hf : cfg.fixedWidth = false) : encLen cfg 0 = [0] ∧ encLen cfg 1 = [1] := by
  unfold encLen encInt
  rw [hf]
  decide

theorem pair_enc {a : Codec α} {b : Codec β} {a' : Codec γ} {b' : Codec δ} {v : α × β} {x : γ} {y : δ}
    (h : a'.enc x = a.enc v.1) (h' : b'.enc y = b.enc v.2) : (pairC a' b').enc (x, y) = (pairC a b).enc v := by
  unfold pairC
  dsimp only
  rw [h, h']

theorem Listed.enc {cfg : Cfg} {E : Env ι} {s e : Ty ι} {g : s.denote E.X → List (e.denote E.X)} (h : Listed cfg E s e g)
    (v : s.denote E.X) : (s.codec cfg E).enc v = encSeq cfg (e.codec cfg E).enc (g v) := by
  cases h with
  | vec h => exact vec_enc h v
  | vector | btreeSet | hashSet | binaryHeap | btreeMap | hashMap => rfl

theorem Listed.wf {cfg : Cfg} {E : Env ι} {s e : Ty ι} {g : s.denote E.X → List (e.denote E.X)} (h : Listed cfg E s e g)
    (v : s.denote E.X) (hv : s.WF E v) : ∀ a ∈ g v, e.WF E a := by
  cases h with
  | vec | vector => exact hv
  | btreeSet | hashSet | binaryHeap | btreeMap | hashMap => exact hv.1

theorem Alike.wf {cfg : Cfg} {E : Env ι} {s t : Ty ι} {f : s.denote E.X → t.denote E.X} (h : Alike cfg E s t f)
    (v : s.denote E.X) (hv : s.WF E v) : t.WF E (f v) := by
  induction h with
  | same | box | unbox => exact hv
  | trans _ _ ih1 ih2 => exact ih2 _ (ih1 v hv)
  | widen => trivial
  | flag => trivial
  | raw => trivial
  | unoctets => trivial
  | notNan => trivial
  | octets => exact fun _ _ => trivial
  | text => exact ⟨v, rfl⟩
  | many => exact fun a ha => hv a (Option.mem_toList.1 ha)
  | option _ ih =>
    intro b hb
    cases v with
    | none => cases hb
    | some a => cases hb; exact ih a (hv a rfl)
  | result _ _ ih ih' =>
    cases v with
    | ok a =>
      refine ⟨fun b hb => ?_, fun b hb => ?_⟩ <;> cases hb
      exact ih a (hv.1 a rfl)
    | error a =>
      refine ⟨fun b hb => ?_, fun b hb => ?_⟩ <;> cases hb
      exact ih' a (hv.2 a rfl)
  | bound _ ih =>
    intro b hb
    cases v with
    | unbounded => rcases hb with hb | hb <;> cases hb
    | included a => rcases hb with hb | hb <;> cases hb; exact ih a (hv a (.inl rfl))
    | excluded a => rcases hb with hb | hb <;> cases hb; exact ih a (hv a (.inr rfl))
  | pair _ _ ih ih' => exact ⟨ih _ hv.1, ih' _ hv.2⟩
  | array n _ ih =>
    refine ⟨(List.length_map ..).trans hv.1, fun b hb => ?_⟩
    obtain ⟨a, ha, rfl⟩ := List.mem_map.1 hb
    exact ih a (hv.2 a ha)
  | vec _ _ _ ih | vector _ ih =>
    intro b hb
    obtain ⟨a, ha, rfl⟩ := List.mem_map.1 hb
    exact ih a (hv a ha)
  | btreeMap _ ih | hashMap _ ih =>
    refine ⟨fun b hb => ?_, List.pairwise_map.2 hv.2⟩
    obtain ⟨a, ha, rfl⟩ := List.mem_map.1 hb
    exact ⟨(hv.1 a ha).1, ih _ (hv.1 a ha).2⟩
  | list h _ | sequence h => exact h.wf v hv
  | unordered he | unorderedSet he => exact ⟨hv.1, hv.2.imp fun {a b} h => by rw [he, h]; rfl⟩

theorem Alike.enc {cfg : Cfg} {E : Env ι} {s t : Ty ι} {f : s.denote E.X → t.denote E.X} (h : Alike cfg E s t f)
    (v : s.denote E.X) (hv : s.WF E v) : (t.codec cfg E).enc (f v) = (s.codec cfg E).enc v := by
  induction h with
  | same | box | unbox => rfl
  | trans h _ ih1 ih2 => exact (ih2 _ (h.wf v hv)).trans (ih1 v hv)
  | widen hf h8 hw hs => exact congrArg Res.ok (encInt_value hf h8 hw hs v)
  | flag => cases v <;> rfl
  | text =>
    show (match fromUtf8 (strBytes v) with | .ok _ => _ | _ => _) = _
    rw [fromUtf8_strBytes]; rfl
  | raw =>
    obtain ⟨s, rfl⟩ := hv
    show _ = (match fromUtf8 (strBytes s) with | .ok _ => _ | _ => _)
    rw [fromUtf8_strBytes]; rfl
  | octets =>
    rw [vec_enc (t := .int .u8) (.inr (fun h => absurd h.1 (by decide)))]
    refine (encSeq_ok (v.map UInt8.toBitVec)).trans ?_
    show Res.ok _ = Res.ok (encLen cfg (List.length v) ++ v)
    rw [List.length_map]
    exact congrArg (fun b => Res.ok (encLen cfg (List.length v) ++ b)) (flatMap_byte v)
  | unoctets =>
    rw [vec_enc (t := .int .u8) (.inr (fun h => absurd h.1 (by decide)))]
    refine Eq.trans ?_ (encSeq_ok v).symm
    show Res.ok (encLen cfg (v.map UInt8.ofBitVec).length ++ v.map UInt8.ofBitVec) = Res.ok _
    rw [List.length_map, ← flatMap_byte (v.map UInt8.ofBitVec), List.map_map]
    have : UInt8.toBitVec ∘ UInt8.ofBitVec = id := rfl
    rw [this, List.map_id]; rfl
  | notNan => rfl
  | many hf h =>
    rw [vec_enc h]
    cases v with
    | none => 
      show Res.ok (encLen cfg 0 ++ []) = Res.ok [0]
      rw [(encLen_tag hf).1]; rfl
    | some a =>
      show encSeq _ _ [a] = _
      show _ = (optionC cfg _).enc (some a)
      unfold encSeq encList encList optionC
      dsimp only
      cases (Ty.codec cfg E _).enc a with
      | ok b =>
        show Res.ok (encLen cfg 1 ++ (b ++ [])) = Res.ok ([1] ++ b)
        rw [(encLen_tag hf).2, List.append_nil]
      | err e => rfl
      | panic => rfl
  | option _ ih =>
    cases v with
    | none => rfl
    | some a =>
      exact congrArg (fun r : Res Bytes => do let b ← r; pure (encInt cfg .u8 1 ++ b)) (ih a (hv a rfl))
  | result _ _ ih ih' =>
    cases v with
    | ok a =>
      exact congrArg (fun r : Res Bytes => do let b ← r; pure (encU32 cfg 0 ++ b)) (ih a (hv.1 a rfl))
    | error a =>
      exact congrArg (fun r : Res Bytes => do let b ← r; pure (encU32 cfg 1 ++ b)) (ih' a (hv.2 a rfl))
  | bound _ ih =>
    cases v with
    | unbounded => rfl
    | included a =>
      exact congrArg (fun r : Res Bytes => do let b ← r; pure (encU32 cfg 1 ++ b)) (ih a (hv a (.inl rfl)))
    | excluded a =>
      exact congrArg (fun r : Res Bytes => do let b ← r; pure (encU32 cfg 2 ++ b)) (ih a (hv a (.inr rfl)))
  | pair _ _ ih ih' =>
    exact pair_enc (ih _ hv.1) (ih' _ hv.2)
  | array n _ ih => exact encList_map_mem v fun a ha => ih a (hv.2 a ha)
  | vec hs ht _ ih => rw [vec_enc hs, vec_enc ht]; exact encSeq_map fun a ha => ih a (hv a ha)
  | vector _ ih => exact encSeq_map fun a ha => ih a (hv a ha)
  | btreeMap _ ih | hashMap _ ih =>
    refine encSeq_map fun a ha => ?_
    exact pair_enc rfl (ih _ (hv.1 a ha).2)
  | list h he => rw [vec_enc he]; exact (h.enc v).symm
  | sequence h => exact (h.enc v).symm
  | unordered | unorderedSet => rfl

theorem dynC_enc [DecidableEq ι] {E : Env ι} (t : Ty ι) (c : Codec (t.denote E.X)) (a : t.denote E.X) :
    (dynC t c).enc ⟨t, a⟩ = c.enc a := by
  simp [dynC, Codec.embed, Dyn.proj]

theorem tyField_wire_enc [DecidableEq ι] {cfg : Cfg} {E : Env ι} {name : String} {opts : FieldOptions} {t : Ty ι}
    {dflt : Nat → Res (t.denote E.X)} {convert : Nat → t.denote E.X → List (Dyn E) → Res (List (Dyn E))}
    (hb : opts.Bare) (e : Entry) (a : t.denote E.X) :
    ((tyField cfg E name opts t dflt convert).wire e).enc ⟨t, a⟩ = (t.codec cfg E).enc a := by
  obtain ⟨h1, h2, h3, h4, h5⟩ := hb
  have : (tyField cfg E name opts t dflt convert).wire e = dynC t (t.codec cfg E) := by
    unfold FieldDecl.wire FieldDecl.optimisedC FieldDecl.legacyC FieldDecl.isIndexed tyField
    simp [h1, h2, h3, h4, h5]
  rw [this, dynC_enc]

section
variable [DecidableEq ι] {cfg : Cfg} {E : Env ι} {e : Entry} {fs fs' : List (FieldDecl (Dyn E))} {vs vs' : List (Dyn E)}

theorem Retyped.fields (h : Retyped cfg E e.revision fs vs fs' vs') :
    serializeFields (fun f v => (f.wire e).enc v) e.revision fs' vs' =
      serializeFields (fun f v => (f.wire e).enc v) e.revision fs vs := by
  induction h with
  | nil => rfl
  | keep v h _ ih => simp only [serializeFields, h, if_true, ih]
  | absent h _ ih => simp only [serializeFields, h, Bool.false_eq_true, if_false, ih]
  | move d d' c c' h hb ha a hw _ ih =>
    have h1 : ∀ name s d c, (tyField cfg E name _ s d c).existsAt e.revision = true := fun _ _ _ _ => h
    simp only [serializeFields, h1, if_true, ih, tyField_wire_enc hb, ha.enc a hw]

theorem Retyped.indexedFields (h : Retyped cfg E e.revision fs vs fs' vs') : ∀ pos,
    serializeIndexedFields (fun f v => (f.wire e).enc v) e.revision fs' vs' pos =
      serializeIndexedFields (fun f v => (f.wire e).enc v) e.revision fs vs pos := by
  induction h with
  | nil => intro; rfl
  | keep v h _ ih => intro pos; simp only [serializeIndexedFields, h, if_true, ih]
  | absent h _ ih => intro pos; simp only [serializeIndexedFields, h, Bool.false_eq_true, if_false, ih]
  | move d d' c c' h hb ha a hw _ ih =>
    intro pos
    have h1 : ∀ name s d c, (tyField cfg E name _ s d c).existsAt e.revision = true := fun _ _ _ _ => h
    simp only [serializeIndexedFields, h1, if_true, ih, tyField_wire_enc hb, ha.enc a hw]

theorem Retyped.alive {r : Nat} (h : Retyped cfg E r fs vs fs' vs') : aliveCount fs' r = aliveCount fs r := by
  unfold aliveCount
  induction h with
  | nil => rfl
  | keep v h _ ih => simp only [List.filter_cons, h, if_true, List.length_cons, ih]
  | absent h _ ih => simp only [List.filter_cons, h, Bool.false_eq_true, if_false, ih]
  | move d d' c c' h hb ha a hw _ ih =>
    have h1 : ∀ name s d c, (tyField cfg E name _ s d c).existsAt r = true := fun _ _ _ _ => h
    simp only [List.filter_cons, h1, if_true, List.length_cons, ih]

theorem tyField_variantWire_enc {name : String} {opts : FieldOptions} {t : Ty ι} {d c} (hb : opts.Bare) (a : t.denote E.X) :
    ((tyField cfg E name opts t d c).variantWire e).enc ⟨t, a⟩ = (t.codec cfg E).enc a := by
  obtain ⟨h1, h2, h3, h4, h5⟩ := hb
  have : (tyField cfg E name opts t d c).variantWire e = dynC t (t.codec cfg E) := by
    unfold FieldDecl.variantWire FieldDecl.legacyC tyField
    simp [h1, h2]
  rw [this, dynC_enc]

theorem Retyped.variantFields (h : Retyped cfg E e.revision fs vs fs' vs') :
    serializeFields (fun f v => (f.variantWire e).enc v) e.revision fs' vs' =
      serializeFields (fun f v => (f.variantWire e).enc v) e.revision fs vs := by
  induction h with
  | nil => rfl
  | keep v h _ ih => simp only [serializeFields, h, if_true, ih]
  | absent h _ ih => simp only [serializeFields, h, Bool.false_eq_true, if_false, ih]
  | move d d' c c' h hb ha a hw _ ih =>
    have h1 : ∀ name s d c, (tyField cfg E name _ s d c).existsAt e.revision = true := fun _ _ _ _ => h
    simp only [serializeFields, h1, if_true, ih, tyField_variantWire_enc hb, ha.enc a hw]

theorem Retyped.enumEnc {h : List Entry} (hr : (lastEntry h).revision = latest h) {us us' : List (VariantDecl (Dyn E))}
    (hsig : us'.map VariantDecl.sig = us.map VariantDecl.sig) (hA : AcceptedEnum (lastEntry h) us') {k : Nat}
    {v v' : VariantDecl (Dyn E)} (hk : us[k]? = some v) (hk' : us'[k]? = some v') (hx : v'.existsAt (latest h) = true)
    (hs : Retyped cfg E (latest h) v.fields vs v'.fields vs') :
    (enumC cfg h us').enc ⟨v'.ident, vs'⟩ = (enumC cfg h us).enc ⟨v.ident, vs⟩ := by
  have hA' : AcceptedEnum (lastEntry h) us := ⟨hsig ▸ hA.distinct, hsig ▸ hA.discs, hsig ▸ hA.optimised⟩
  have hv : v'.sig = v.sig := by
    have := congrArg (fun l => l[k]?) hsig
    simpa [List.getElem?_map, hk, hk'] using this
  have hi : v'.ident = v.ident := congrArg VariantSig.ident hv
  have ho : v'.opts = v.opts := congrArg VariantSig.opts hv
  rw [← hr] at hs hx
  have hx' : v.existsAt (lastEntry h).revision = true := by
    unfold VariantDecl.existsAt at hx ⊢
    rw [← ho]
    exact hx
  obtain ⟨d', hd'⟩ := hA.arm_total (List.mem_of_getElem? hk') hx
  obtain ⟨d, hd⟩ := hA'.arm_total (List.mem_of_getElem? hk) hx'
  have e : d' = d := by
    have h1 := (mem_variantArms.1 hd').2.2
    have h2 := (mem_variantArms.1 hd).2.2
    unfold discsAt at h1 h2
    rw [hsig, hi, h2] at h1
    exact (Option.some.inj h1).symm
  subst e
  have f1 := hA.find_ident hd'
  have f2 := hA'.find_ident hd
  unfold enumC serializeEnumBody
  dsimp only at f1 f2 ⊢
  rw [f1, f2]
  dsimp only
  rw [hs.variantFields, ho]

theorem Retyped.enc {h : List Entry} (hr : (lastEntry h).revision = latest h) (hs : Retyped cfg E (latest h) fs vs fs' vs') :
    (structC cfg h fs').enc vs' = (structC cfg h fs).enc vs := by
  rw [← hr] at hs
  unfold structC serializeStructBody
  dsimp only
  rw [hs.fields, hs.indexedFields, hs.alive]

end

theorem readColl_build (cfg : Cfg) (cap : Nat → Bool) (d : Rd α) (build : List α → β) (s : Bytes) :
    readColl cfg cap d build s =
      (match readColl cfg cap d (fun l => l) s with
        | .ok (l, r) => .ok (build l, r)
        | .err e => .err e
        | .panic => .panic) := by
  unfold readColl
  simp only [Rd.bind_run]
  cases readLen cfg s with
  | err e => rfl
  | panic => rfl
  | ok p =>
    obtain ⟨n, r⟩ := p
    dsimp only
    cases Rd.alloc (cap n) r with
    | err e => rfl
    | panic => rfl
    | ok p =>
      dsimp only
      cases Rd.readN n d p.2 with
      | err e => rfl
      | panic => rfl
      | ok p => rfl

theorem btreeBuild_perm {κ : Type} (cmp : κ → κ → Ordering) [Std.TransCmp cmp] (key : α → κ) (l : List α)
    (h : l.Pairwise fun a b => cmp (key a) (key b) ≠ .eq) : (btreeBuild cmp key l).Perm l := by
  have hp := List.mergeSort_perm l fun a b => (cmp (key a) (key b)).isLE
  have hs := List.pairwise_mergeSort (btree_le_trans cmp key) (btree_le_total cmp key) l
  have hn : (l.mergeSort fun a b => (cmp (key a) (key b)).isLE).Pairwise fun a b => cmp (key a) (key b) ≠ .eq :=
    (hp.symm.pairwise_iff (R := fun a b => cmp (key a) (key b) ≠ .eq) fun {a b} h h' =>
      h (by rw [Std.OrientedCmp.eq_swap (cmp := cmp), h']; rfl)).1 h
  unfold btreeBuild
  rw [dedupLast_fix cmp key _ (by
    simp only [StrictAsc, List.pairwise_map]
    refine hs.imp₂ (fun a b h1 h2 => ?_) hn
    cases h : cmp (key a) (key b) with
    | lt => rfl
    | eq => exact absurd h h2
    | gt => rw [h] at h1; cases h1)]
  exact hp

/-- What any list of elements is read as by a collection type of the same elements. -/
theorem Listed.read {cfg : Cfg} {E : Env ι} (hE : E.Lawful) {s e : Ty ι} {g : s.denote E.X → List (e.denote E.X)}
    (h : Listed cfg E s e g) (x : s.denote E.X) (hw : s.WF E x) (hf : (Ty.vector e).Fits E (g x)) :
    ∃ b, (s.codec cfg E).enc x = .ok b ∧ ∀ (β : Type) (build : List (e.denote E.X) → β) rest,
      readColl cfg (E.cap e) (e.codec cfg E).dec build (b ++ rest) = .ok (build (g x), rest) := by
  have hv := (Ty.vector e).valid_of cfg hE (g x) (h.wf x hw) hf
  obtain ⟨b, hb⟩ := ((Ty.vector e).codec_lawful cfg hE).enc_ok _ hv
  refine ⟨b, (h.enc x).trans hb, fun β build rest => ?_⟩
  have := ((Ty.vector e).codec_lawful cfg hE).round_trip _ b hv hb rest
  rw [readColl_build]
  have h2 : readColl cfg (E.cap e) (e.codec cfg E).dec (fun l => l) (b ++ rest) = .ok (g x, rest) := this
  rw [h2]

end Revision
