import Verif.Spec.WireField
import Verif.Props.WireIndexed

/-! Helper lemmas: the impls the attributes select produce the specified forms. -/

namespace Revision

open Wire

theorem parts_iff {R : α → Bytes → Prop} {enc : α → Res Bytes} (l : List α)
    (h : ∀ a ∈ l, ∀ b, enc a = .ok b ↔ R a b) (bs : List Bytes) : Forms enc l bs ↔ Parts R l bs := by
  rw [← forms_iff]
  induction l generalizing bs with
  | nil =>
    constructor
    · intro e; cases e; exact .nil
    · intro e; cases e; rfl
  | cons a l ih =>
    rw [encEach_cons]
    constructor
    · rintro ⟨b, bs', rfl, h1, h2⟩
      exact .cons ((h a (by simp) b).1 h1) ((ih (fun a ha => h a (by simp [ha])) _).1 h2)
    · intro e
      cases e with
      | cons h1 h2 => exact ⟨_, _, rfl, (h a (by simp) _).2 h1, (ih (fun a ha => h a (by simp [ha])) _).2 h2⟩

theorem writeSeqBodies_flatten {bs : List Bytes} {b : Bytes} (h : writeSeqBodies bs = .ok b) :
    bs.flatten.length ≤ b.length := by
  unfold writeSeqBodies at h
  by_cases hn : bs.length < offsetTableMinLen
  · rw [if_pos hn] at h; cases h; simp; omega
  · rw [if_neg hn] at h
    obtain ⟨⟨os, n⟩, _, h2⟩ := Res.bind_eq_ok.1 h
    cases h2; simp; omega

theorem writeMapPairs_flatten {ps : List (Bytes × Bytes)} {b : Bytes} (h : writeMapPairs ps = .ok b)
    (hn : 8 ≤ ps.length) : (ps.map Prod.fst).flatten.length ≤ b.length ∧
      (ps.map Prod.snd).flatten.length ≤ b.length := by
  unfold writeMapPairs at h
  rw [if_neg (by unfold offsetTableMinLen; omega)] at h
  obtain ⟨⟨os, n, m⟩, _, h2⟩ := Res.bind_eq_ok.1 h
  cases h2; simp; omega

theorem indexedSeq_flatten (bs : List Bytes) : bs.flatten.length ≤ (indexedSeq bs).length := by
  unfold indexedSeq; split <;> simp only [List.length_append] <;> omega

theorem indexedMap_flatten {ps : List (Bytes × Bytes)} (hn : 8 ≤ ps.length) :
    (ps.map Prod.fst).flatten.length ≤ (indexedMap ps).length ∧
      (ps.map Prod.snd).flatten.length ≤ (indexedMap ps).length := by
  unfold indexedMap; simp only; rw [if_neg (by omega)]; simp only [List.length_append]; omega

/-- Distinct valid values have distinct encodings. -/
theorem Codec.Lawful.enc_nodup {c : Codec α} (h : c.Lawful) {l : List α} (hv : ∀ a ∈ l, c.valid a)
    (hn : l.Nodup) {bs : List Bytes} (e : encEach c.enc l = .ok bs) : bs.Nodup := by
  induction l generalizing bs with
  | nil => injection e with e; subst e; exact .nil
  | cons a l ih =>
    obtain ⟨b, bs', rfl, hb, hbs⟩ := encEach_cons.1 e
    have hn' := List.nodup_cons.1 hn
    refine List.nodup_cons.2 ⟨?_, ih (fun a ha => hv a (by simp [ha])) hn'.2 hbs⟩
    intro hm
    obtain ⟨a', ha', e'⟩ := (encEach_mem hbs b).1 hm
    have h1 := h.round_trip a b (hv a (by simp)) hb []
    have h2 := h.round_trip a' b (hv a' (by simp [ha'])) e' []
    rw [h1] at h2
    simp only [Res.ok.injEq, Prod.mk.injEq, and_true] at h2
    exact hn'.1 (h2 ▸ ha')

theorem Wire.Forms.length {f : α → Res β} {l : List α} {bs : List β} (h : Forms f l bs) :
    bs.length = l.length := by
  simpa [Forms] using (congrArg List.length h).symm

theorem indexedSeq_iff {R : α → Bytes → Prop} {enc : α → Res Bytes} {l : List α}
    (h : ∀ a ∈ l, ∀ b, enc a = .ok b ↔ R a b) (hlen : l.length < 2 ^ 64) {b : Bytes}
    (hb : b.length < 2 ^ 32) :
    serializeIndexedSeq enc l = .ok b ↔ ∃ parts, Parts R l parts ∧ b = indexedSeq parts := by
  unfold serializeIndexedSeq
  rw [Res.bind_eq_ok]
  constructor
  · rintro ⟨bs, h1, h2⟩
    have hf := forms_iff.1 h1
    have hl := writeSeqBodies_flatten h2
    rw [writeSeqBodies_eq (by rw [hf.length]; exact hlen) (fun _ => by omega)] at h2
    cases h2
    exact ⟨bs, (parts_iff l h bs).1 hf, rfl⟩
  · rintro ⟨bs, h1, rfl⟩
    have hf := (parts_iff l h bs).2 h1
    have hl := indexedSeq_flatten bs
    exact ⟨bs, forms_iff.2 hf, writeSeqBodies_eq (by rw [hf.length]; exact hlen) (fun _ => by omega)⟩

theorem indexedSet_iff {R : α → Bytes → Prop} {c : Codec α} (hc : c.Lawful) {l : List α}
    (hv : ∀ a ∈ l, c.valid a) (hn : l.Nodup)
    (h : ∀ a ∈ l, ∀ b, c.enc a = .ok b ↔ R a b) (hlen : l.length < 2 ^ 64) {b : Bytes}
    (hb : b.length < 2 ^ 32) :
    serializeIndexedSet c.enc l = .ok b ↔
      ∃ parts sorted, Parts R l parts ∧ sorted.Perm parts ∧ Ascending sorted ∧ b = indexedSeq sorted := by
  constructor
  · intro e
    unfold serializeIndexedSet at e
    obtain ⟨bs, h1, h2⟩ := Res.bind_eq_ok.1 e
    have hf := forms_iff.1 h1
    have hp : (bs.mergeSort fun a b => (cmpBytes a b).isLE).Perm bs := sorted_perm id bs
    have ha : Ascending (bs.mergeSort fun a b => (cmpBytes a b).isLE) := by
      have := sorted_asc id bs (by simpa using hc.enc_nodup hv hn h1)
      simpa [Ascending] using this
    have hl := writeSeqBodies_flatten h2
    rw [writeSeqBodies_eq (by rw [hp.length_eq, hf.length]; exact hlen) (fun _ => by omega)] at h2
    cases h2
    exact ⟨bs, _, (parts_iff l h bs).1 hf, hp, ha, rfl⟩
  · rintro ⟨bs, s, h1, hp, ha, rfl⟩
    have hf := (parts_iff l h bs).2 h1
    have hl := indexedSeq_flatten s
    refine C72_set c l bs s hf hp ha (by rw [hf.length]; exact hlen) fun _ => ?_
    rw [← hp.flatten.length_eq]; omega

theorem indexedMap_iff {Rk : κ → Bytes → Prop} {Rv : ν → Bytes → Prop} {k : Codec κ} {v : Codec ν}
    (hk : k.Lawful) {l : List (κ × ν)} (hvalid : ∀ e ∈ l, k.valid e.1) (hn : (l.map Prod.fst).Nodup)
    (h1 : ∀ e ∈ l, ∀ b, k.enc e.1 = .ok b ↔ Rk e.1 b) (h2 : ∀ e ∈ l, ∀ b, v.enc e.2 = .ok b ↔ Rv e.2 b)
    (hlen : l.length < 2 ^ 64) {b : Bytes} (hb : b.length < 2 ^ 32) :
    serializeIndexedEntries k.enc v.enc l = .ok b ↔
      ∃ ks vs sorted, Parts (fun e => Rk e.1) l ks ∧ Parts (fun e => Rv e.2) l vs ∧
        sorted.Perm (ks.zip vs) ∧ Ascending (sorted.map Prod.fst) ∧ b = indexedMap sorted := by
  have f1 : ∀ {bs}, Forms k.enc (l.map Prod.fst) bs ↔ Parts (fun e => Rk e.1) l bs := fun {bs} => by
    rw [← parts_iff l h1 bs]; simp only [Forms, List.map_map]; rfl
  have f2 : ∀ {bs}, Forms v.enc (l.map Prod.snd) bs ↔ Parts (fun e => Rv e.2) l bs := fun {bs} => by
    rw [← parts_iff l h2 bs]; simp only [Forms, List.map_map]; rfl
  constructor
  · intro e
    obtain ⟨ps, e1, e2⟩ := Res.bind_eq_ok.1 e
    obtain ⟨g1, g2, _⟩ := encEach_pairs e1
    have hp := sorted_perm Prod.fst ps
    have ha := sorted_asc Prod.fst ps (hk.enc_nodup (l := l.map Prod.fst) (by
      intro a ha
      obtain ⟨e, he, rfl⟩ := List.mem_map.1 ha
      exact hvalid e he) hn g1)
    have hl : ps.length = l.length := (forms_iff.1 e1).length
    rw [writeMapPairs_eq (by rw [hp.length_eq, hl]; exact hlen) (fun h8 => by
      have := writeMapPairs_flatten e2 h8; omega)] at e2
    cases e2
    exact ⟨_, _, _, f1.1 (forms_iff.1 g1), f2.1 (forms_iff.1 g2), by rw [← List.unzip_fst, ← List.unzip_snd, List.zip_unzip]; exact hp, ha, rfl⟩
  · rintro ⟨ks, vs, s, e1, e2, hp, ha, rfl⟩
    have g1 := f1.2 e1
    have g2 := f2.2 e2
    have hkl : ks.length = l.length := by rw [g1.length, List.length_map]
    have hvl : vs.length = l.length := by rw [g2.length, List.length_map]
    refine C72_map k v l ks vs g1 g2 s hp ha hlen fun h8 => ?_
    have := indexedMap_flatten (ps := s) (by rw [hp.length_eq]; simp [hkl, hvl]; exact h8)
    rw [(hp.map Prod.fst).flatten.length_eq, (hp.map Prod.snd).flatten.length_eq,
      List.map_fst_zip (by omega), List.map_snd_zip (by omega)] at this
    omega

theorem nodup_of_lt {cmp : α → α → Ordering} [Std.TransCmp cmp] {l : List α}
    (h : l.Pairwise fun a b => cmp a b = .lt) : l.Nodup :=
  h.imp fun {a b} h e => by subst e; rw [Std.ReflCmp.compare_self (cmp := cmp)] at h; cases h

theorem nodup_of_ne {eq : α → α → Bool} (hr : ∀ a, eq a a = true) {l : List α}
    (h : l.Pairwise fun a b => eq a b = false) : l.Nodup :=
  h.imp fun {a b} h e => by subst e; rw [hr] at h; cases h

theorem vec_length {t : Ty ι} {E : Env ι} {l : List (t.denote E.X)} (hf : (Ty.vec t).Fits E l) :
    l.length < 2 ^ 64 := by
  have := hf.1
  refine Nat.lt_of_le_of_lt (Nat.le_mul_of_pos_right _ ?_) this
  cases t <;> simp only [Ty.elemBytes, Nat.lt_add_one, Nat.zero_lt_succ]
  case int k => cases k <;> decide
  case float f => cases f <;> decide

theorem indexedOf_wire (cfg : Cfg) {E : Env ι} (hE : E.Lawful) (hr : ∀ t a, E.eq t a a = true) (t : Ty ι)
    (v : t.denote E.X) (hw : t.WF E v) (hf : t.Fits E v) {b : Bytes} (hb : b.length < 2 ^ 32) :
    (indexedOf cfg E t).enc v = .ok b ↔ t.IndexedWire cfg E v b := by
  cases t with
  | vec t => exact indexedSeq_iff (fun a ha => t.codec_wire cfg E a (hw a ha) (hf.2.2 a ha)) (vec_length hf) hb
  | vector t => exact indexedSeq_iff (fun a ha => t.codec_wire cfg E a (hw a ha) (hf.2.2 a ha)) hf.1 hb
  | btreeSet t =>
    have := hE.trans t
    exact indexedSet_iff (t.codec_lawful cfg hE) (fun a ha => t.valid_of cfg hE a (hw.1 a ha) (hf.2.2 a ha))
      (nodup_of_lt hw.2) (fun a ha => t.codec_wire cfg E a (hw.1 a ha) (hf.2.2 a ha)) hf.1 hb
  | hashSet t =>
    exact indexedSet_iff (t.codec_lawful cfg hE) (fun a ha => t.valid_of cfg hE a (hw.1 a ha) (hf.2.2 a ha))
      (nodup_of_ne (hr t) hw.2) (fun a ha => t.codec_wire cfg E a (hw.1 a ha) (hf.2.2 a ha)) hf.1 hb
  | btreeMap k w =>
    have := hE.trans k
    exact indexedMap_iff (k.codec_lawful cfg hE) (fun e he => k.valid_of cfg hE _ (hw.1 e he).1 (hf.2.2 e he).1)
      (nodup_of_lt (List.pairwise_map.2 hw.2)) (fun e he => k.codec_wire cfg E _ (hw.1 e he).1 (hf.2.2 e he).1)
      (fun e he => w.codec_wire cfg E _ (hw.1 e he).2 (hf.2.2 e he).2) hf.1 hb
  | hashMap k w =>
    exact indexedMap_iff (k.codec_lawful cfg hE) (fun e he => k.valid_of cfg hE _ (hw.1 e he).1 (hf.2.2 e he).1)
      (nodup_of_ne (hr k) (List.pairwise_map.2 hw.2)) (fun e he => k.codec_wire cfg E _ (hw.1 e he).1 (hf.2.2 e he).1)
      (fun e he => w.codec_wire cfg E _ (hw.1 e he).2 (hf.2.2 e he).2) hf.1 hb
  | _ => exact Ty.codec_wire cfg E _ v hw hf b

theorem fixedOf_wire (cfg : Cfg) (E : Env ι) (t : Ty ι)
    (v : t.denote E.X) (hw : t.WF E v) (hf : t.Fits E v) (b : Bytes) :
    (fixedOf cfg E t).enc v = .ok b ↔ t.FixedWire cfg E v b := by
  cases t with
  | int k =>
    have hc := Ty.codec_wire cfg E (.int k) v hw hf b
    cases k
    case u32 | i32 | u64 | i64 | u128 | i128 =>
      simp only [fixedOf, fixedIntC, fixedC, Ty.FixedWire, leBytes_eq_le, Res.ok.injEq, IntTy.bits]
      exact eq_comm
    all_goals exact hc
  | _ => exact Ty.codec_wire cfg E _ v hw hf b

theorem bulkOf_wire (cfg : Cfg) (E : Env ι) (t : Ty ι)
    (v : t.denote E.X) (hw : t.WF E v) (hf : t.Fits E v) (b : Bytes) :
    (bulkOf cfg E t).enc v = .ok b ↔ t.BulkWire cfg E v b := by
  cases t with
  | vec t =>
    exact vecOf_wire ⟨cfg.fixedWidth, true⟩ E t v (vec_length hf)
      (fun a ha => t.codec_wire cfg E a (hw a ha) (hf.2.2 a ha)) b
  | _ => exact Ty.codec_wire cfg E _ v hw hf b

theorem dynC_enc [DecidableEq ι] {E : Env ι} (t : Ty ι) (c : Codec (t.denote E.X)) (a : t.denote E.X) :
    (dynC t c).enc ⟨t, a⟩ = c.enc a := by
  simp [dynC, Codec.embed, Dyn.proj]

/-- An impl for one field, with the sizes the `u32` offsets can express. -/
theorem fieldWire_iff [DecidableEq ι] (cfg : Cfg) {E : Env ι} (hE : E.Lawful) (hr : ∀ t a, E.eq t a a = true)
    (e : Entry) (name : String) (opts : FieldOptions) (t : Ty ι) (dflt : Nat → Res (t.denote E.X))
    (convert : Nat → t.denote E.X → List (Dyn E) → Res (List (Dyn E))) (a : t.denote E.X)
    (hw : t.WF E a) (hf : t.Fits E a) {b : Bytes} (hb : e.optimised = true → b.length < 2 ^ 32) :
    ((tyField cfg E name opts t dflt convert).wire e).enc ⟨t, a⟩ = .ok b ↔
      t.FieldWire cfg E e.optimised true opts a b := by
  unfold FieldDecl.wire Ty.FieldWire
  by_cases ho : e.optimised = true
  · rw [if_pos ho, if_pos ho]
    unfold FieldDecl.optimisedC FieldDecl.isIndexed
    by_cases hi : opts.indexedMap = true ∨ opts.indexedSeq = true ∨ opts.indexedSet = true
    · rw [if_pos (by simpa [tyField, Bool.or_eq_true, or_assoc] using hi), if_pos ⟨rfl, hi⟩]
      exact (by rw [tyField, dynC_enc] : _ ↔ _).trans (indexedOf_wire cfg hE hr t a hw hf (hb ho))
    · rw [if_neg (by simpa [tyField, Bool.or_eq_true, or_assoc] using hi), if_neg (fun h => hi h.2)]
      exact (by rw [tyField, dynC_enc] : _ ↔ _).trans (t.codec_wire cfg E a hw hf b)
  · rw [if_neg ho, if_neg ho]
    unfold FieldDecl.legacyC
    by_cases h1 : opts.fixed = true
    · simp only [tyField, h1, if_true, dynC_enc]; exact fixedOf_wire cfg E t a hw hf b
    · by_cases h2 : opts.specialised = true
      · simp only [tyField, h1, h2, if_true, Bool.false_eq_true, if_false, dynC_enc]
        exact bulkOf_wire cfg E t a hw hf b
      · simp only [tyField, h1, h2, Bool.false_eq_true, if_false, dynC_enc]
        exact t.codec_wire cfg E a hw hf b

theorem fieldVariantWire_iff [DecidableEq ι] (cfg : Cfg) (E : Env ι)
    (e : Entry) (name : String) (opts : FieldOptions) (t : Ty ι) (dflt : Nat → Res (t.denote E.X))
    (convert : Nat → t.denote E.X → List (Dyn E) → Res (List (Dyn E))) (a : t.denote E.X)
    (hw : t.WF E a) (hf : t.Fits E a) (b : Bytes) :
    ((tyField cfg E name opts t dflt convert).variantWire e).enc ⟨t, a⟩ = .ok b ↔
      t.FieldWire cfg E e.optimised false opts a b := by
  unfold FieldDecl.variantWire Ty.FieldWire
  by_cases ho : e.optimised = true
  · rw [if_pos ho, if_pos ho, if_neg (by simp)]
    simp only [tyField, dynC_enc]
    exact t.codec_wire cfg E a hw hf b
  · rw [if_neg ho, if_neg ho]
    unfold FieldDecl.legacyC
    by_cases h1 : opts.fixed = true
    · simp only [tyField, h1, if_true, dynC_enc]; exact fixedOf_wire cfg E t a hw hf b
    · by_cases h2 : opts.specialised = true
      · simp only [tyField, h1, h2, if_true, Bool.false_eq_true, if_false, dynC_enc]
        exact bulkOf_wire cfg E t a hw hf b
      · simp only [tyField, h1, h2, Bool.false_eq_true, if_false, dynC_enc]
        exact t.codec_wire cfg E a hw hf b

theorem encodes_iff [DecidableEq ι] {cfg : Cfg} {E : Env ι} {c : FieldDecl (Dyn E) → Codec (Dyn E)}
    {optimised inStruct : Bool} {fs : List (FieldDecl (Dyn E))} {vs : List (Dyn E)} (ht : Typed cfg E fs vs)
    {bs : List Bytes}
    (h : ∀ name opts (t : Ty ι) dflt convert (a : t.denote E.X) b, b ∈ bs → t.WF E a → t.Fits E a →
      ((c (tyField cfg E name opts t dflt convert)).enc ⟨t, a⟩ = .ok b ↔
        t.FieldWire cfg E optimised inStruct opts a b)) :
    Encodes c fs vs bs ↔ FieldParts cfg E optimised inStruct (fs.map (·.opts)) vs bs := by
  induction ht generalizing bs with
  | nil =>
    constructor
    · intro e; cases e; exact .nil
    · intro e; cases e; exact .nil
  | cons hw hf _ ih =>
    constructor
    · intro e
      cases e with
      | cons e1 e2 =>
        exact .cons ((h _ _ _ _ _ _ _ (by simp) hw hf).1 e1)
          ((ih fun n o t d cv a b hb => h n o t d cv a b (by simp [hb])).1 e2)
    · intro e
      cases e with
      | cons e1 e2 =>
        exact .cons ((h _ _ _ _ _ _ _ (by simp) hw hf).2 e1)
          ((ih fun n o t d cv a b hb => h n o t d cv a b (by simp [hb])).2 e2)

theorem Typed.length_eq [DecidableEq ι] {cfg : Cfg} {E : Env ι} {fs : List (FieldDecl (Dyn E))}
    {vs : List (Dyn E)} (h : Typed cfg E fs vs) : vs.length = fs.length := by
  induction h with
  | nil => rfl
  | cons _ _ _ ih => simp [ih]

theorem FieldParts.length_eq {cfg : Cfg} {E : Env ι} {p s : Bool} {os : List FieldOptions}
    {vs : List (Dyn E)} {bs : List Bytes} (h : FieldParts cfg E p s os vs bs) : bs.length = os.length := by
  induction h with
  | nil => rfl
  | cons _ _ ih => simp [ih]

end Revision
