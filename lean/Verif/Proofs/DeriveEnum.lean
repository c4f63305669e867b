import Verif.Proofs.Derive
import Verif.Proofs.Schema
import Verif.Props.Optimised

/-! Lemmas about derived enums. -/

namespace Revision

variable {V : Type}

theorem find?_unique {l : List α} {p : α → Bool} {a : α} (ha : a ∈ l) (hp : p a = true)
    (hu : ∀ b ∈ l, p b = true → b = a) : l.find? p = some a := by
  cases hf : l.find? p with
  | none => exact absurd hp (by simpa using List.find?_eq_none.1 hf a ha)
  | some b => rw [hu b (List.mem_of_find?_eq_some hf) (List.find?_some hf)]

theorem findRev?_unique {l : List α} {p : α → Bool} {a : α} (ha : a ∈ l) (hp : p a = true)
    (hu : ∀ b ∈ l, p b = true → b = a) : l.findRev? p = some a := by
  rw [List.findRev?_eq_find?_reverse]
  exact find?_unique (List.mem_reverse.2 ha) hp (fun b hb => hu b (List.mem_reverse.1 hb))

/-! ### Arms -/

theorem mem_variantArms {vs : List (VariantDecl V)} {r : Nat} {d : Nat} {v : VariantDecl V} :
    (d, v) ∈ variantArms vs r ↔ v ∈ vs ∧ v.existsAt r = true ∧ (discsAt vs r).lookup v.ident = some d := by
  unfold variantArms
  simp only [List.mem_filterMap, List.mem_filter, Option.map_eq_some_iff, Prod.mk.injEq]
  constructor
  · rintro ⟨w, ⟨h1, h2⟩, x, h3, rfl, rfl⟩
    exact ⟨h1, h2, h3⟩
  · rintro ⟨h1, h2, h3⟩
    exact ⟨v, ⟨h1, h2⟩, d, h3, rfl, rfl⟩

theorem AcceptedEnum.discsAt {e : Entry} {vs : List (VariantDecl V)} (h : AcceptedEnum e vs) :
    calcDiscs e.revision (vs.map VariantDecl.sig) = .ok (discsAt vs e.revision) := by
  obtain ⟨D, hD, _⟩ := h.discs
  unfold Revision.discsAt
  rw [hD]

theorem AcceptedEnum.nodup {e : Entry} {vs : List (VariantDecl V)} (h : AcceptedEnum e vs) :
    ((vs.filter (·.existsAt e.revision)).map (·.ident)).Nodup := by
  have := h.distinct
  unfold DistinctVariants at this
  rw [List.filter_map, List.map_map] at this
  exact this

theorem AcceptedEnum.same {e : Entry} {vs : List (VariantDecl V)} (h : AcceptedEnum e vs)
    {v w : VariantDecl V} (hv : v ∈ vs) (hva : v.existsAt e.revision = true) (hw : w ∈ vs)
    (hwa : w.existsAt e.revision = true) (hi : v.ident = w.ident) : v = w :=
  inj_of_nodup_map _ h.nodup (List.mem_filter.2 ⟨hv, hva⟩) (List.mem_filter.2 ⟨hw, hwa⟩) hi

theorem AcceptedEnum.arm_ident {e : Entry} {vs : List (VariantDecl V)} (h : AcceptedEnum e vs)
    {a b : Nat × VariantDecl V} (ha : a ∈ variantArms vs e.revision) (hb : b ∈ variantArms vs e.revision)
    (hi : a.2.ident = b.2.ident) : a = b := by
  rcases a with ⟨d, v⟩
  rcases b with ⟨d', w⟩
  obtain ⟨h1, h2, h3⟩ := mem_variantArms.1 ha
  obtain ⟨h4, h5, h6⟩ := mem_variantArms.1 hb
  have hvw := h.same h1 h2 h4 h5 hi
  subst hvw
  rw [h3] at h6
  cases h6
  rfl

theorem AcceptedEnum.arm_disc {e : Entry} {vs : List (VariantDecl V)} (h : AcceptedEnum e vs)
    {a b : Nat × VariantDecl V} (ha : a ∈ variantArms vs e.revision) (hb : b ∈ variantArms vs e.revision)
    (hi : a.1 = b.1) : a = b := by
  refine h.arm_ident ha hb ?_
  rcases a with ⟨d, v⟩
  rcases b with ⟨d', w⟩
  obtain ⟨h1, h2, h3⟩ := mem_variantArms.1 ha
  obtain ⟨h4, h5, h6⟩ := mem_variantArms.1 hb
  simp only at hi
  subst hi
  have F := discFacts e.revision _ h.distinct _ h.discsAt
  have := inj_of_nodup_map _ F.vals (mem_of_lookup_eq_some _ _ _ h3) (mem_of_lookup_eq_some _ _ _ h6) rfl
  exact congrArg Prod.fst this

theorem AcceptedEnum.arm_total {e : Entry} {vs : List (VariantDecl V)} (h : AcceptedEnum e vs)
    {v : VariantDecl V} (hv : v ∈ vs) (ha : v.existsAt e.revision = true) :
    ∃ d, (d, v) ∈ variantArms vs e.revision := by
  obtain ⟨d, hd⟩ := disc_total e.revision _ h.distinct _ h.discsAt v.sig (List.mem_map.2 ⟨v, hv, rfl⟩) ha
  have F := discFacts e.revision _ h.distinct _ h.discsAt
  exact ⟨d, mem_variantArms.2 ⟨hv, ha, lookup_eq_some_of_mem _ F.keys _ _ hd⟩⟩

theorem AcceptedEnum.disc_lt {e : Entry} {vs : List (VariantDecl V)} (h : AcceptedEnum e vs)
    {a : Nat × VariantDecl V} (ha : a ∈ variantArms vs e.revision) : a.1 < 2 ^ 32 := by
  obtain ⟨D, hD, hlt⟩ := h.discs
  rcases a with ⟨d, v⟩
  have h3 := (mem_variantArms.1 ha).2.2
  have := h.discsAt
  rw [hD] at this
  cases this
  exact hlt _ _ h3

theorem AcceptedEnum.disc_lt_32 {e : Entry} {vs : List (VariantDecl V)} (h : AcceptedEnum e vs)
    (ho : e.optimised = true) {a : Nat × VariantDecl V} (ha : a ∈ variantArms vs e.revision) : a.1 < 32 := by
  have hv := h.optimised ho
  unfold validateOptimised at hv
  rw [h.discsAt] at hv
  simp only at hv
  split at hv
  · cases hv
  split at hv
  · cases hv
  split at hv
  · cases hv
  rename_i hany
  rcases a with ⟨d, v⟩
  have h3 := mem_of_lookup_eq_some _ _ _ (mem_variantArms.1 ha).2.2
  simp only [List.any_eq_true, not_exists, not_and, decide_eq_true_eq] at hany
  have := hany _ h3
  simp only at this ⊢
  omega

theorem AcceptedEnum.find_ident {e : Entry} {vs : List (VariantDecl V)} (h : AcceptedEnum e vs)
    {a : Nat × VariantDecl V} (ha : a ∈ variantArms vs e.revision) :
    (variantArms vs e.revision).find? (fun b => b.2.ident == a.2.ident) = some a :=
  find?_unique ha (by simp) fun b hb hp => h.arm_ident hb ha (by simpa using hp)

theorem AcceptedEnum.find_disc {e : Entry} {vs : List (VariantDecl V)} (h : AcceptedEnum e vs)
    {a : Nat × VariantDecl V} (ha : a ∈ variantArms vs e.revision) :
    (variantArms vs e.revision).find? (fun b => b.1 == a.1) = some a :=
  find?_unique ha (by simp) fun b hb hp => h.arm_disc hb ha (by simpa using hp)

theorem uint8_ofNat_inj {a b : Nat} (ha : a < 256) (hb : b < 256) (h : UInt8.ofNat a = UInt8.ofNat b) : a = b := by
  have := congrArg UInt8.toNat h
  simpa [UInt8.toNat_ofNat, Nat.mod_eq_of_lt ha, Nat.mod_eq_of_lt hb] using this

/-! ### Reading a variant -/

theorem readOptimisedTag_new {id : Nat} (h : id < 32) (sc : SizeClass) (t : Bytes) :
    readOptimisedTag (Tag.new (UInt8.ofNat id) sc :: t) = .ok ((Tag.new (UInt8.ofNat id) sc, sc), t) := by
  have hid : (UInt8.ofNat id).toNat < 32 := by
    rw [UInt8.toNat_ofNat', Nat.mod_eq_of_lt (by omega)]; exact h
  unfold readOptimisedTag
  rw [Rd.bind_of_ok (Rd.readByte_cons _ t), (C30_round_trip _ sc hid).2]
  rfl

theorem tag_variantId_new {id : Nat} (h : id < 32) (sc : SizeClass) :
    (Tag.new (UInt8.ofNat id) sc).variantId = UInt8.ofNat id := by
  have hid : (UInt8.ofNat id).toNat < 32 := by
    rw [UInt8.toNat_ofNat', Nat.mod_eq_of_lt (by omega)]; exact h
  exact (C30_round_trip _ sc hid).1

theorem AcceptedEnum.find_tag {e : Entry} {vs : List (VariantDecl V)} (h : AcceptedEnum e vs)
    (ho : e.optimised = true) {a : Nat × VariantDecl V} (ha : a ∈ variantArms vs e.revision) :
    (variantArms vs e.revision).find? (fun b => UInt8.ofNat b.1 == UInt8.ofNat a.1 &&
      (b.2.opts.size.getD .inline).cls == (a.2.opts.size.getD .inline).cls) = some a := by
  refine find?_unique ha (by simp) fun b hb hp => h.arm_disc hb ha ?_
  rw [Bool.and_eq_true] at hp
  have h1 := h.disc_lt_32 ho ha
  have h2 := h.disc_lt_32 ho hb
  exact uint8_ofNat_inj (by omega) (by omega) (by simpa using hp.1)

theorem decodeAlive_run {r : Nat} : ∀ (fs : List (FieldDecl V)) (vs : List V) (bs : List Bytes) (t : Bytes),
    (∀ f ∈ fs, f.existsAt r = true → ReadsBack (fun f => f.plain) (fun f => f.plain.dec) f) →
    AllValid (fun f => f.plain) (aliveFields fs r) vs → Encodes (fun f => f.plain) (aliveFields fs r) vs bs →
    decodeAlive r fs (bs.flatten ++ t) = .ok (vs, t)
  | [], vs, bs, t, _, hv, he => by cases he; rfl
  | f :: fs, vs, bs, t, hr, hv, he => by
    have ih := fun vs bs => decodeAlive_run fs vs bs t (fun g hg => hr g (List.mem_cons_of_mem _ hg))
    unfold aliveFields at hv he ih
    unfold decodeAlive
    by_cases ha : f.existsAt r
    · rw [List.filter_cons_of_pos (by simpa using ha)] at hv he
      cases he with
      | cons h1 h2 =>
        cases hv with
        | cons h3 h4 =>
          rw [if_pos ha, List.flatten_cons, List.append_assoc,
            Rd.bind_of_ok (hr f List.mem_cons_self ha _ _ h3 h1 _), Rd.bind_of_ok (ih _ _ h4 h2)]
          rfl
    · rw [List.filter_cons_of_neg (by simpa using ha)] at hv he
      rw [if_neg ha]
      exact ih _ _ hv he

theorem migrate_of_same {cur tgt : Nat} {c : FieldDecl V → Codec V} (fs : List (FieldDecl V)) (vs : List V)
    (hs : ∀ f ∈ fs, f.existsAt tgt = f.existsAt cur) (h : AllValid c (aliveFields fs cur) vs) :
    migrate cur tgt fs vs = .ok vs := by
  have hm : ∀ (fs : List (FieldDecl V)) vs, (∀ f ∈ fs, f.existsAt tgt = f.existsAt cur) →
      migratedFields cur tgt fs vs = migratedFields cur cur fs vs := by
    intro fs
    induction fs with
    | nil => intro _ _; rfl
    | cons f fs ih =>
      intro vs hs
      unfold migratedFields
      rw [hs f List.mem_cons_self]
      cases vs with
      | nil => simp only [ih _ (fun g hg => hs g (List.mem_cons_of_mem _ hg))]
      | cons v vs => simp only [ih _ (fun g hg => hs g (List.mem_cons_of_mem _ hg))]
  have := migrate_same fs vs h
  unfold migrate at this ⊢
  rw [hm fs vs hs]
  rw [migratedFields_same fs vs h] at this ⊢
  simp only [Res.ok_bind] at this ⊢
  have hall : ∀ p ∈ (aliveFields fs cur).zip vs, p.1.existsAt tgt = p.1.existsAt cur := by
    intro p hp
    exact hs _ (List.mem_filter.1 (List.of_mem_zip hp).1).1
  rw [List.filter_congr (q := fun p : FieldDecl V × V => !p.1.existsAt cur) (fun p hp => by rw [hall p hp]),
    List.filter_congr (q := fun p : FieldDecl V × V => p.1.existsAt cur) (fun p hp => hall p hp)]
  exact this

/-- The body of a variant's payload reads back. -/
theorem readSized_run (size : VariantSize) (body t : Bytes)
    (h : match size with
      | .inline => body = []
      | .fixed n => body.length = n
      | .varlen => body.length < 2 ^ 32) :
    readSized size (sizedPayload size body ++ t) = .ok (body, t) := by
  cases size with
  | inline => simp only at h; subst h; rfl
  | fixed n => exact Rd.readExact_append body t n h
  | varlen => simp only [sizedPayload, readSized]; exact readLengthPrefixed_append body h t

/-- What a value of a live variant writes. -/
theorem serializeEnumBody_ok (cfg : Cfg) (e : Entry) (vs : List (VariantDecl V)) (hA : AcceptedEnum e vs)
    (d : Nat) (v : VariantDecl V) (ha : (d, v) ∈ variantArms vs e.revision) (xs : List V)
    (hl : xs.length = (aliveFields v.fields e.revision).length) (out : Bytes) :
    serializeEnumBody cfg e vs ⟨v.ident, xs⟩ = .ok out ↔
      ∃ bs, Encodes (fun f => f.variantWire e) (aliveFields v.fields e.revision) xs bs ∧
        (e.optimised = true → v.opts.size.getD .inline = .varlen → bs.flatten.length < 2 ^ 32) ∧
        out = enumLayout cfg e d (v.opts.size.getD .inline) bs := by
  unfold serializeEnumBody
  have hfind := hA.find_ident ha
  simp only at hfind
  simp only [hfind]
  have tail : ∀ bs : List Bytes, (do
        let body ← Res.ok bs.flatten
        if e.optimised = true then serializeSized d (v.opts.size.getD .inline) body
        else pure (encU32 cfg d ++ body)) =
      if e.optimised = true ∧ v.opts.size.getD .inline = .varlen ∧ ¬ bs.flatten.length < 2 ^ 32 then .err .serialize
      else .ok (enumLayout cfg e d (v.opts.size.getD .inline) bs) := by
    intro bs
    simp only [Res.ok_bind]
    unfold enumLayout
    by_cases ho : e.optimised
    · rw [if_pos ho, if_pos ho]
      unfold serializeSized
      cases hsz : v.opts.size.getD .inline with
      | inline => simp [sizedPayload]
      | fixed n => simp [sizedPayload]
      | varlen =>
        simp only [lengthPrefixed, sizedPayload]
        by_cases hb : bs.flatten.length < 2 ^ 32
        · rw [if_pos hb, if_neg (fun h => h.2.2 hb)]
          rfl
        · rw [if_neg hb, if_pos ⟨ho, trivial, hb⟩]
          rfl
    · rw [if_neg ho, if_neg ho, if_neg (fun h => ho h.1)]
      rfl
  constructor
  · intro h
    obtain ⟨body, hb, h⟩ := Res.bind_eq_ok.1 h
    obtain ⟨bs, hbs, rfl⟩ := serializeFields_ok _ _ _ hl hb
    have := tail bs
    simp only [Res.ok_bind] at this
    rw [this] at h
    split at h
    · cases h
    · rename_i hc
      cases h
      refine ⟨bs, hbs, fun ho hz => ?_, rfl⟩
      exact Classical.byContradiction fun hn => hc ⟨ho, hz, hn⟩
  · rintro ⟨bs, hbs, hlt, rfl⟩
    rw [serializeFields_encodes _ _ _ hbs, tail, if_neg]
    rintro ⟨ho, hz, hn⟩
    exact hn (hlt ho hz)

/-- The declared size of a variant suits the bytes of its fields. -/
def SizeFits (size : VariantSize) (body : Bytes) : Prop :=
  match size with
  | .inline => body = []
  | .fixed n => body.length = n
  | .varlen => True

/-- Reading an enum body written at entry `e` gives the migrated value. -/
theorem deserializeEnumBody_run (cfg : Cfg) (e : Entry) (tgt : Nat) (vs : List (VariantDecl V))
    (hA : AcceptedEnum e vs) (d : Nat) (v : VariantDecl V) (ha : (d, v) ∈ variantArms vs e.revision)
    (xs : List V) (b t : Bytes)
    (hf : ∀ f ∈ v.fields, f.existsAt e.revision = true → (f.variantWire e).Faithful)
    (hn : e.optimised = false → DistinctNames v.fields e.revision tgt)
    (hx : e.optimised = true → ∀ f ∈ v.fields, f.existsAt tgt = f.existsAt e.revision)
    (hv : AllValid (fun f => f.variantWire e) (aliveFields v.fields e.revision) xs)
    (hz : e.optimised = true → ∀ bs, Encodes (fun f => f.plain) (aliveFields v.fields e.revision) xs bs →
      SizeFits (v.opts.size.getD .inline) bs.flatten)
    (he : serializeEnumBody cfg e vs ⟨v.ident, xs⟩ = .ok b) :
    deserializeEnumBody cfg e tgt vs (b ++ t) = (migrateVariant e.revision tgt v xs).andRest t := by
  obtain ⟨bs, hbs, hlt, rfl⟩ := (serializeEnumBody_ok cfg e vs hA d v ha xs hv.length_eq b).1 he
  unfold deserializeEnumBody enumLayout migrateVariant
  by_cases ho : e.optimised
  · have hd := hA.disc_lt_32 ho ha
    have hw : (fun f : FieldDecl V => f.variantWire e) = fun f => f.plain := by
      funext f; unfold FieldDecl.variantWire; rw [if_pos ho]
    rw [hw] at hv hbs
    simp only [if_pos ho, List.cons_append]
    rw [Rd.bind_of_ok (readOptimisedTag_new hd _ _)]
    simp only [tag_variantId_new hd]
    have hft := hA.find_tag ho ha
    simp only at hft
    rw [hft]
    simp only [decodeOptimisedVariant]
    have hsz := hz ho bs hbs
    rw [Rd.bind_of_ok (readSized_run _ bs.flatten t ?_)]
    · have hrun := decodeAlive_run v.fields xs bs [] (fun f hfm hal v b h1 h2 t => by
        have := (hf f hfm hal).round_trip v b
        unfold FieldDecl.variantWire at this
        rw [if_pos ho] at this
        exact this h1 h2 t) hv hbs
      rw [List.append_nil] at hrun
      rw [Rd.within_of_ok hrun, Rd.bind_of_ok (a := xs) (r := t) rfl, migrate_of_same v.fields xs (hx ho) hv]
      simp only [Res.ok_bind]
      by_cases htg : v.existsAt tgt
      · rw [if_pos htg, if_pos htg]; rfl
      · rw [if_neg htg, if_neg htg, lift_andRest]
    · revert hsz
      cases hsize : v.opts.size.getD .inline with
      | inline => exact id
      | fixed n => exact id
      | varlen => exact fun _ => hlt ho hsize
  · have ho' : e.optimised = false := by simpa using ho
    have hw : (fun f : FieldDecl V => f.variantWire e) = fun f => f.legacyC := by
      funext f; unfold FieldDecl.variantWire; rw [if_neg ho]
    rw [hw] at hv hbs
    simp only [if_neg ho, List.append_assoc]
    rw [Rd.bind_of_ok (readU32_encU32 cfg (hA.disc_lt ha) _)]
    have hfd := hA.find_disc ha
    simp only at hfd
    simp only [hfd]
    unfold decodeLegacyVariant
    have hrb : ∀ f ∈ v.fields, f.existsAt e.revision = true →
        ReadsBack (fun f => f.legacyC) (fun f => f.legacyC.dec) f := by
      intro f hfm hal v b h1 h2 t
      have := (hf f hfm hal).round_trip v b
      unfold FieldDecl.variantWire at this
      rw [if_neg ho] at this
      exact this h1 h2 t
    have hrun := decodeStructBody_run v.fields xs bs t (fun f hfm h1 _ => hrb f hfm h1)
      (fun f hfm h1 _ => hrb f hfm h1) (hn ho') hv hbs
    cases hm : migrate e.revision tgt v.fields xs with
    | err x => rw [hm] at hrun; rw [Rd.bind_of_err (e := x) hrun]; rfl
    | panic => rw [hm] at hrun; rw [Rd.bind_of_panic hrun]; rfl
    | ok ys =>
      rw [hm] at hrun
      rw [Rd.bind_of_ok (a := ys) (r := t) hrun]
      simp only [Res.ok_bind]
      by_cases htg : v.existsAt tgt
      · rw [if_pos htg, if_pos htg]; rfl
      · rw [if_neg htg, if_neg htg, lift_andRest]

/-! ### Older programs -/

theorem calcDiscs_congr (r : Nat) : ∀ (vs ws : List VariantSig),
    (vs.filter (·.existsAt r)).map (fun v => (v.ident, v.opts.overrides)) =
      (ws.filter (·.existsAt r)).map (fun v => (v.ident, v.opts.overrides)) →
    calcDiscs r vs = calcDiscs r ws := by
  have hg : ∀ (vs ws : List VariantSig), (∀ v ∈ vs, v.existsAt r = true) → (∀ v ∈ ws, v.existsAt r = true) →
      vs.map (fun v => (v.ident, v.opts.overrides)) = ws.map (fun v => (v.ident, v.opts.overrides)) →
      (∀ discs used, gatherOverrides r vs discs used = gatherOverrides r ws discs used) ∧
      ∀ discs used next, assignDiscs r vs discs used next = assignDiscs r ws discs used next := by
    intro vs
    induction vs with
    | nil =>
      intro ws _ _ h
      cases ws with
      | nil => exact ⟨fun _ _ => rfl, fun _ _ _ => rfl⟩
      | cons => simp at h
    | cons v vs ih =>
      intro ws hv hw h
      cases ws with
      | nil => simp at h
      | cons w ws =>
        simp only [List.map_cons, List.cons.injEq, Prod.mk.injEq] at h
        obtain ⟨⟨h1, h2⟩, h3⟩ := h
        have ih := ih ws (fun x hx => hv x (List.mem_cons_of_mem _ hx))
          (fun x hx => hw x (List.mem_cons_of_mem _ hx)) h3
        have e1 := hv v List.mem_cons_self
        have e2 := hw w List.mem_cons_self
        constructor
        · intro discs used
          unfold gatherOverrides
          simp only [e1, e2, h1, h2, ih.1]
        · intro discs used next
          unfold assignDiscs
          simp only [e1, e2, h1, ih.2]
  intro vs ws h
  have hk := hg (vs.filter (·.existsAt r)) (ws.filter (·.existsAt r)) (fun v hv => (List.mem_filter.1 hv).2)
    (fun v hv => (List.mem_filter.1 hv).2) h
  unfold calcDiscs
  rw [← gatherOverrides_filter r vs, ← gatherOverrides_filter r ws, hk.1]
  cases gatherOverrides r (ws.filter (·.existsAt r)) [] [] with
  | error e => rfl
  | ok p => simp only []; rw [← assignDiscs_filter r vs, ← assignDiscs_filter r ws, hk.2]

theorem VariantDecl.asOf_exists {r : Nat} (hr : r < 2 ^ 64 - 1) (v : VariantDecl V) :
    match v.asOf r with
    | some w => w.existsAt r = v.existsAt r ∧ w.ident = v.ident ∧ w.opts.size = v.opts.size ∧
        w.opts.overrides = v.opts.overrides ∧ w.fields = fieldsAsOf r v.fields
    | none => v.existsAt r = false := by
  unfold VariantDecl.asOf
  by_cases h : v.opts.start.getD 0 ≤ r
  · rw [if_pos h]
    refine ⟨?_, rfl, rfl, rfl, rfl⟩
    unfold VariantDecl.existsAt Revision.existsAt
    simp only
    cases hs : v.opts.stop with
    | none => rfl
    | some x =>
      by_cases hx : x ≤ r
      · simp [Option.filter, hx]
      · have h1 : decide (r < 2 ^ 64 - 1) = true := by simpa using hr
        have h2 : decide (r < x) = true := by simp; omega
        simp only [Option.filter, hx, decide_false, Bool.false_eq_true, if_false, Option.getD_none,
          Option.getD_some, gt_iff_lt, h1, h2]
  · rw [if_neg h]
    unfold VariantDecl.existsAt Revision.existsAt
    simp [h]

/-- A variant alive at `r`, as it stood then. -/
def VariantDecl.old (r : Nat) (v : VariantDecl V) : VariantDecl V :=
  { v with
    opts := { v.opts with stop := v.opts.stop.filter (fun e => e ≤ r) }
    fields := fieldsAsOf r v.fields }

theorem aliveVariants_asOf {r : Nat} (hr : r < 2 ^ 64 - 1) (vs : List (VariantDecl V)) :
    aliveVariants (variantsAsOf r vs) r = (aliveVariants vs r).map (VariantDecl.old r) := by
  unfold aliveVariants variantsAsOf
  induction vs with
  | nil => rfl
  | cons v vs ih =>
    have h := v.asOf_exists hr
    rw [List.filterMap_cons]
    cases hv : v.asOf r with
    | none =>
      rw [hv] at h
      simp only at h ⊢
      rw [ih, List.filter_cons_of_neg (by simp [h])]
    | some w =>
      have hw : w = v.old r := by
        unfold VariantDecl.asOf at hv
        split at hv
        · cases hv; rfl
        · cases hv
      rw [hv] at h
      simp only at h ⊢
      by_cases ha : v.existsAt r
      · rw [List.filter_cons_of_pos (by rw [h.1]; exact ha), List.filter_cons_of_pos (by simpa using ha), ih,
          List.map_cons, hw]
      · rw [List.filter_cons_of_neg (by rw [h.1]; exact ha), List.filter_cons_of_neg (by simpa using ha), ih]

theorem sig_filter (vs : List (VariantDecl V)) (r : Nat) :
    (vs.map VariantDecl.sig).filter (·.existsAt r) = (aliveVariants vs r).map VariantDecl.sig := by
  rw [List.filter_map]; rfl

theorem calcDiscs_asOf {r : Nat} (hr : r < 2 ^ 64 - 1) (vs : List (VariantDecl V)) :
    calcDiscs r ((variantsAsOf r vs).map VariantDecl.sig) = calcDiscs r (vs.map VariantDecl.sig) := by
  refine calcDiscs_congr r _ _ ?_
  rw [sig_filter, sig_filter, aliveVariants_asOf hr, List.map_map, List.map_map, List.map_map]
  rfl

theorem discsAt_asOf {r : Nat} (hr : r < 2 ^ 64 - 1) (vs : List (VariantDecl V)) :
    discsAt (variantsAsOf r vs) r = discsAt vs r := by
  unfold discsAt
  rw [calcDiscs_asOf hr]

theorem variantArms_asOf {r : Nat} (hr : r < 2 ^ 64 - 1) (vs : List (VariantDecl V)) :
    variantArms (variantsAsOf r vs) r = (variantArms vs r).map (fun a => (a.1, a.2.old r)) := by
  have h := aliveVariants_asOf hr vs
  unfold aliveVariants at h
  unfold variantArms
  rw [h, discsAt_asOf hr, List.filterMap_map, List.map_filterMap]
  congr 1
  funext v
  show Option.map _ ((discsAt vs r).lookup v.ident) = _
  cases (discsAt vs r).lookup v.ident <;> rfl

theorem serializeFields_variant_asOf {r : Nat} (hr : r < 2 ^ 64 - 1) (e : Entry) :
    ∀ (fs : List (FieldDecl V)) (vs : List V),
    serializeFields (fun f v => (f.variantWire e).enc v) r (fieldsAsOf r fs) vs =
      serializeFields (fun f v => (f.variantWire e).enc v) r fs vs
  | [], vs => rfl
  | f :: fs, vs => by
    have h := asOf_exists hr f
    have hw : ∀ g, f.asOf r = some g → g.variantWire e = f.variantWire e := by
      intro g hg
      unfold FieldDecl.asOf at hg
      split at hg
      · cases hg; rfl
      · cases hg
    have ih := serializeFields_variant_asOf hr e fs
    unfold fieldsAsOf at ih ⊢
    rw [List.filterMap_cons]
    cases hf : f.asOf r with
    | none =>
      rw [hf] at h
      simp only at h ⊢
      conv => rhs; unfold serializeFields
      rw [if_neg (by simp [h]), ih]
    | some g =>
      rw [hf] at h
      simp only at h ⊢
      unfold serializeFields
      rw [h.1]
      simp only [hw g hf, ih]

theorem validFields_variant_asOf {r : Nat} (hr : r < 2 ^ 64 - 1) (e : Entry) :
    ∀ (fs : List (FieldDecl V)) (vs : List V),
    ValidFields (fun f => f.variantWire e) r (fieldsAsOf r fs) vs ↔
      ValidFields (fun f => f.variantWire e) r fs vs
  | [], vs => Iff.rfl
  | f :: fs, vs => by
    have h := asOf_exists hr f
    have hw : ∀ g, f.asOf r = some g → g.variantWire e = f.variantWire e := by
      intro g hg
      unfold FieldDecl.asOf at hg
      split at hg
      · cases hg; rfl
      · cases hg
    have ih := validFields_variant_asOf hr e fs
    unfold fieldsAsOf at ih ⊢
    rw [List.filterMap_cons]
    cases hf : f.asOf r with
    | none =>
      rw [hf] at h
      simp only at h ⊢
      conv => rhs; unfold ValidFields
      rw [if_neg (by simp [h]), ih]
    | some g =>
      rw [hf] at h
      simp only at h ⊢
      unfold ValidFields
      rw [h.1]
      simp only [hw g hf, ih]

theorem serializeEnumBody_asOf (cfg : Cfg) (e : Entry) (hr : e.revision < 2 ^ 64 - 1)
    (vs : List (VariantDecl V)) (x : EnumVal V) :
    serializeEnumBody cfg e (variantsAsOf e.revision vs) x = serializeEnumBody cfg e vs x := by
  unfold serializeEnumBody
  rw [variantArms_asOf hr, List.find?_map]
  have : ((fun a : Nat × VariantDecl V => a.2.ident == x.variant) ∘
      fun a : Nat × VariantDecl V => (a.1, a.2.old e.revision)) = fun a => a.2.ident == x.variant := by funext a; rfl
  rw [this]
  cases (variantArms vs e.revision).find? (fun a => a.2.ident == x.variant) with
  | none => rfl
  | some a =>
    simp only [Option.map_some, VariantDecl.old, serializeFields_variant_asOf hr e]

theorem serializeFields_plain {e : Entry} (ho : e.optimised = true) (r : Nat) (fs : List (FieldDecl V)) (vs : List V) :
    serializeFields (fun f w => f.plain.enc w) r fs vs =
      serializeFields (fun f w => (f.variantWire e).enc w) r fs vs := by
  unfold FieldDecl.variantWire
  simp only [if_pos ho]

theorem validEnum_asOf (e : Entry) (hr : e.revision < 2 ^ 64 - 1) (vs : List (VariantDecl V)) (x : EnumVal V) :
    ValidEnum e (variantsAsOf e.revision vs) x ↔ ValidEnum e vs x := by
  unfold ValidEnum
  rw [variantArms_asOf hr]
  constructor
  · rintro ⟨id, v, hm, hi, hv, hz⟩
    obtain ⟨⟨d, w⟩, hw, heq⟩ := List.mem_map.1 hm
    simp only [Prod.mk.injEq] at heq
    obtain ⟨rfl, rfl⟩ := heq
    refine ⟨d, w, hw, hi, (validFields_variant_asOf hr e _ _).1 hv, fun ho => ?_⟩
    have := hz ho
    simp only [VariantDecl.old] at this
    rw [serializeFields_plain ho, serializeFields_variant_asOf hr e] at this
    rw [serializeFields_plain ho]
    exact this
  · rintro ⟨id, v, hm, hi, hv, hz⟩
    refine ⟨id, v.old e.revision, List.mem_map.2 ⟨_, hm, rfl⟩, hi,
      (validFields_variant_asOf hr e _ _).2 hv, fun ho => ?_⟩
    have := hz ho
    simp only [VariantDecl.old]
    rw [serializeFields_plain ho, serializeFields_variant_asOf hr e]
    rw [serializeFields_plain ho] at this
    exact this

theorem ValidEnum.sizeFits {e : Entry} {vs : List (VariantDecl V)} {x : EnumVal V}
    {v : VariantDecl V} (ho : e.optimised = true)
    (hz : match v.opts.size.getD .inline with
      | .inline => x.fields = []
      | .fixed n => ∀ b, serializeFields (fun f w => f.plain.enc w) e.revision v.fields x.fields = .ok b →
          b.length = n
      | .varlen => True) (bs : List Bytes)
    (hbs : Encodes (fun f => f.plain) (aliveFields v.fields e.revision) x.fields bs) :
    SizeFits (v.opts.size.getD .inline) bs.flatten := by
  revert hz
  cases v.opts.size.getD .inline with
  | inline =>
    intro hz
    simp only at hz
    rw [hz] at hbs
    revert hbs
    generalize aliveFields v.fields e.revision = fs
    intro hbs
    cases hbs
    rfl
  | fixed n =>
    intro hz
    exact hz _ (serializeFields_encodes _ _ _ hbs)
  | varlen => exact fun _ => trivial

theorem aliveVariants_find {e : Entry} {vs : List (VariantDecl V)} (h : AcceptedEnum e vs)
    {v : VariantDecl V} (hv : v ∈ vs) (ha : v.existsAt e.revision = true) :
    (aliveVariants vs e.revision).find? (fun w => w.ident == v.ident) = some v := by
  refine find?_unique (List.mem_filter.2 ⟨hv, ha⟩) (by simp) fun w hw hp => ?_
  exact h.same (List.mem_filter.1 hw).1 (List.mem_filter.1 hw).2 hv ha (by simpa using hp)

/-! ### Skipping -/

theorem AcceptedEnum.sizeTable_eq {e : Entry} {vs : List (VariantDecl V)} (h : AcceptedEnum e vs)
    {a : Nat × VariantDecl V} (ha : a ∈ variantArms vs e.revision) {n : Nat}
    (hn : a.2.opts.size.getD .inline = .fixed n) : sizeTable vs e.revision a.1 = n := by
  unfold sizeTable
  rw [findRev?_unique ha (by simp) fun b hb hp => h.arm_disc hb ha (by simpa using hp)]
  simp only
  cases hs : a.2.opts.size with
  | none => rw [hs] at hn; cases hn
  | some s => rw [hs] at hn; simp only [Option.getD_some] at hn; subst hn; rfl

theorem decodeLegacyVariant_agree (e : Entry) (tgt : Nat) (v : VariantDecl V) {skip : FieldDecl V → Rd Unit}
    (h : ∀ f ∈ v.fields, f.existsAt e.revision = true → f.legacyC.dec.Agree (skip f)) :
    (decodeLegacyVariant e tgt v).Agree (skipFields skip e.revision tgt v.fields) := by
  intro s a r hs
  unfold decodeLegacyVariant at hs
  obtain ⟨ys, r1, h1, h2⟩ := Rd.bind_ok.1 hs
  have hr : r1 = r := by
    split at h2
    · cases h2; rfl
    · exact (lift_run_ok.1 h2).2
  subst hr
  exact decodeStructBody_agree v.fields (fun f hf ha => ⟨h f hf ha, h f hf ha⟩) s ys r1 h1

theorem readSized_cases (size : VariantSize) {adv : Nat → Rd Unit} (hadv : ∀ n, (Rd.readExact n).Agree (adv n)) :
    (readSized size).Agree (match size with
      | .inline => pure ()
      | .fixed n => adv n
      | .varlen => readVarlenLen >>= adv) := by
  cases size with
  | inline => exact .pure _ _
  | fixed n => exact hadv n
  | varlen => exact readLengthPrefixed_agree hadv

/-- What the optimised skip does on the tag of a live variant. -/
theorem skipEnum_known (cfg : Cfg) (e : Entry) (tgt : Nat) (vs : List (VariantDecl V)) (hA : AcceptedEnum e vs)
    (ho : e.optimised = true) {adv : Nat → Rd Unit} {skip : FieldDecl V → Rd Unit} {s t : Bytes} {tag : Tag}
    {sc : SizeClass} (hs : readOptimisedTag s = .ok ((tag, sc), t)) {a : Nat × VariantDecl V}
    (ha : a ∈ variantArms vs e.revision) (hid : UInt8.ofNat a.1 = tag.variantId)
    (hsc : (a.2.opts.size.getD .inline).cls = sc) :
    skipEnumBody cfg adv skip e tgt vs s = (match a.2.opts.size.getD .inline with
      | .inline => pure ()
      | .fixed n => adv n
      | .varlen => readVarlenLen >>= adv : Rd Unit) t := by
  have hlt := hA.disc_lt_32 ho ha
  have hnat : tag.variantId.toNat = a.1 := by
    rw [← hid, UInt8.toNat_ofNat', Nat.mod_eq_of_lt (by omega)]
  unfold skipEnumBody
  simp only [if_pos ho]
  rw [Rd.bind_of_ok hs]
  simp only [hnat]
  subst hsc
  cases hsz : a.2.opts.size.getD .inline with
  | inline => rfl
  | fixed n =>
    simp only [VariantSize.cls]
    rw [hA.sizeTable_eq ha hsz]
  | varlen => rfl

theorem deserializeEnumBody_agree (cfg : Cfg) (e : Entry) (tgt : Nat) (vs : List (VariantDecl V))
    (hA : e.optimised = true → AcceptedEnum e vs)
    {adv : Nat → Rd Unit} (hadv : ∀ n, (Rd.readExact n).Agree (adv n)) {skip : FieldDecl V → Rd Unit}
    (h : e.optimised = false → ∀ v ∈ vs, v.existsAt e.revision = true → ∀ f ∈ v.fields,
      f.existsAt e.revision = true → f.legacyC.dec.Agree (skip f)) :
    (deserializeEnumBody cfg e tgt vs).Agree (skipEnumBody cfg adv skip e tgt vs) := by
  by_cases ho : e.optimised
  · intro s a r hs
    unfold deserializeEnumBody at hs
    simp only [if_pos ho] at hs
    obtain ⟨⟨tag, sc⟩, t, h1, h2⟩ := Rd.bind_ok.1 hs
    simp only at h2
    split at h2
    · rename_i arm harm
      have hm := List.mem_of_find?_eq_some harm
      have hp := List.find?_some harm
      simp only [Bool.and_eq_true, beq_iff_eq] at hp
      rw [skipEnum_known cfg e tgt vs (hA ho) ho h1 hm hp.1 hp.2]
      unfold decodeOptimisedVariant at h2
      obtain ⟨body, r1, h3, h4⟩ := Rd.bind_ok.1 h2
      obtain ⟨ys, r2, h5, h6⟩ := Rd.bind_ok.1 h4
      have hr1 := (lift_run_ok.1 h5).2
      have hr2 : r2 = r := by
        split at h6
        · cases h6; rfl
        · exact (lift_run_ok.1 h6).2
      subst hr1; subst hr2
      exact readSized_cases _ hadv t body r1 h3
    · cases h2
  · unfold deserializeEnumBody skipEnumBody
    simp only [if_neg ho]
    refine Rd.Agree.bind_same fun d => ?_
    cases hf : (variantArms vs e.revision).find? (fun a => a.1 == d) with
    | none => exact .fail_left
    | some a =>
      rcases a with ⟨d', v⟩
      have hm := mem_variantArms.1 (List.mem_of_find?_eq_some hf)
      exact decodeLegacyVariant_agree e tgt v (h (by simpa using ho) v hm.1 hm.2.1)

theorem advance_ok_iff {n : Nat} {s r : Bytes} :
    Rd.advance n s = .ok ((), r) ↔ ∃ p, s = p ++ r ∧ p.length = n := by
  constructor
  · intro h
    unfold Rd.advance at h
    simp only at h
    split at h
    · cases h
      exact ⟨s.take n, (List.take_append_drop n s).symm, by rw [List.length_take]; omega⟩
    · cases h
  · rintro ⟨p, rfl, rfl⟩
    exact Rd.advance_append p r _ rfl

theorem readVarlenLen_ok {s r : Bytes} {n : Nat} (h : readVarlenLen s = .ok (n, r)) :
    n < 2 ^ 32 ∧ s = leBytes 4 n ++ r := by
  unfold readVarlenLen at h
  obtain ⟨b, r1, h1, h2⟩ := Rd.bind_ok.1 h
  cases h2
  unfold Rd.readExact at h1
  simp only at h1
  split at h1
  · cases h1
    rename_i hle
    have hlen : (s.take 4).length = 4 := by rw [List.length_take]; omega
    have hb := leVal_lt (s.take 4)
    rw [hlen] at hb
    refine ⟨hb, ?_⟩
    have := leBytes_leVal (s.take 4)
    rw [hlen] at this
    rw [this, List.take_append_drop]
  · cases h1

end Revision
