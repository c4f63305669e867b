import Verif.Proofs.PathOldStruct

/-! Helper lemmas: following paths through enums written at earlier revisions. -/

namespace Revision

variable {V W β : Type}

/-- What the reader gets for an enum. -/
def enumMig (k tgt : Nat) (ss : List (VariantStep V W)) (x : EnumVal V) : Option (EnumVal W) :=
  (migrateVariantLive k ss x).bind fun y => (migrateEnum k tgt (ss.map VariantStep.new) y).ok?

/-- The walker of an enum written at an earlier revision. -/
theorem walkEnum_old (cfg : Cfg) {h : List Entry} (hh : ValidHistory h) {ss : List (VariantStep V W)} {k : Nat}
    (h1 : 1 ≤ k) (h2 : k ≤ h.length) (hs : ∀ s ∈ ss, ∀ f ∈ s.fields, f.SameDecl)
    (hA : AcceptedEnum (lastEntry (h.take k)) (ss.map VariantStep.new))
    (hc : EnumNotConverted h (ss.map VariantStep.new) k) {x : EnumVal V} {b : Bytes}
    (hv : (enumC cfg (h.take k) (variantsAsOf k (ss.map VariantStep.old))).valid x)
    (hb : (enumC cfg (h.take k) (variantsAsOf k (ss.map VariantStep.old))).enc x = .ok b) (t : Bytes) :
    ∃ s ∈ ss, ∃ d bs, (d, s.new) ∈ variantArms (ss.map VariantStep.new) k ∧ s.ident = x.variant ∧
      s.new.existsAt k = true ∧
      AllValid (fun f => f.variantWire (lastEntry (h.take k))) (aliveFields (s.fields.map (·.old)) k) x.fields ∧
      Encodes (fun f => f.variantWire (lastEntry (h.take k))) (aliveFields (s.fields.map (·.old)) k) x.fields bs ∧
      walkEnum cfg h (ss.map VariantStep.new) (b ++ t) =
        if (lastEntry (h.take k)).optimised then .ok (.borrowed bs.flatten d, t)
        else .ok (.wire k d, bs.flatten ++ t) := by
  have hmem : lastEntry (h.take k) ∈ h := List.mem_of_getElem? (hh.lastEntry_take h1 h2)
  have hrev : (lastEntry (h.take k)).revision = k := by
    have := hh.revision_get (hh.lastEntry_take h1 h2)
    omega
  have hfit := hh.fits
  obtain ⟨s, hsm, d, bs, harm, hi, hex, hval, hbs, hsz, rfl⟩ := enumC_wrote cfg hh h1 h2 hs hA x b hv hb
  refine ⟨s, hsm, d, bs, harm, hi, hex, hval, hbs, ?_⟩
  generalize lastEntry (h.take k) = e at *
  subst hrev
  have hw := walkEnum_direct cfg hh hmem hc
    (readU16_encU16 cfg (by omega) (enumLayout cfg e d (s.opts.size.getD .inline) bs ++ t))
  rw [List.append_assoc, hw]
  unfold enumLayout
  cases ho : e.optimised with
  | false =>
    simp only [Bool.false_eq_true, if_false, List.append_assoc]
    rw [Rd.bind_of_ok (readU32_encU32 cfg (hA.disc_lt harm) _)]
    rfl
  | true =>
    simp only [if_true, List.cons_append]
    have hd := hA.disc_lt_32 ho harm
    refine walkOptimised_run ho hA (readOptimisedTag_new hd _ _) (tag_variantId_new hd _) harm ?_
    refine readSized_run _ bs.flatten t ?_
    exact hsz ho

/-- A value keeps its variant, if none is removed. -/
theorem enumMig_kept {h : List Entry} (hh : ValidHistory h) {ss : List (VariantStep V W)} {k : Nat}
    (h1 : 1 ≤ k) (h2 : k ≤ h.length) (hA : AcceptedEnum (lastEntry (h.take k)) (ss.map VariantStep.new))
    {s : VariantStep V W} (hsm : s ∈ ss) (hex : s.new.existsAt k = true) (hkept : s.new.existsAt h.length = true)
    {x : EnumVal V} (hi : s.ident = x.variant) {x' : EnumVal W} (hm : enumMig k h.length ss x = some x') :
    x'.variant = s.ident ∧ ∃ ws, migrateLive (fun s => s.new.existsAt k) FieldStep.mig s.fields x.fields = some ws ∧
      migrate k h.length (s.fields.map (·.new)) ws = .ok x'.fields := by
  have hrev : (lastEntry (h.take k)).revision = k := by
    have := hh.revision_get (hh.lastEntry_take h1 h2)
    omega
  have hfs : (ss.filter fun s => s.new.existsAt k).find? (fun w => w.ident == s.ident) = some s := by
    have hnd := hA.nodup
    rw [hrev, List.filter_map, List.map_map] at hnd
    refine find?_unique (List.mem_filter.2 ⟨hsm, hex⟩) (by simp) fun w hw hwi => ?_
    exact inj_of_nodup_map _ hnd hw (List.mem_filter.2 ⟨hsm, hex⟩) (by simpa [VariantStep.new] using hwi)
  have hal := aliveVariants_find hA (List.mem_map_of_mem hsm) (by rw [hrev]; exact hex)
  rw [hrev] at hal
  change List.find? (fun w : VariantDecl W => w.ident == s.ident) _ = _ at hal
  rw [hi] at hfs hal
  unfold enumMig migrateVariantLive at hm
  simp only [hfs] at hm
  obtain ⟨y, hy, hm⟩ := Option.bind_eq_some_iff.1 hm
  obtain ⟨ws, hws, rfl⟩ := Option.map_eq_some_iff.1 hy
  have hm := Res.ok?_eq_some.1 hm
  unfold migrateEnum migrateVariant at hm
  simp only [hal] at hm
  obtain ⟨fields, hf, hm⟩ := Res.bind_eq_ok.1 hm
  rw [if_pos hkept] at hm
  cases hm
  exact ⟨rfl, ws, hws, hf⟩

/-- If the fields of its variant are the same, so many does the value have. -/
theorem enumMig_same {k tgt : Nat} {s : VariantStep V W} (hsame : ∀ f ∈ s.fields, f.new.existsAt tgt = f.new.existsAt k)
    {vs : List V} {ws ws' : List W}
    (hl : migrateLive (fun s => s.new.existsAt k) FieldStep.mig s.fields vs = some ws)
    (hm : migrate k tgt (s.fields.map (·.new)) ws = .ok ws') :
    ws' = ws ∧ ws.length = (s.fields.filter fun f => f.new.existsAt tgt).length := by
  have hlen := migrateLive_length hl
  have hal : (aliveFields (s.fields.map (·.new)) k).length = (s.fields.filter fun f => f.new.existsAt k).length := by
    unfold aliveFields
    rw [List.filter_map, List.length_map]
    rfl
  have := migrate_of_same_length (cur := k) (tgt := tgt) (s.fields.map (·.new)) ws (by
    intro f hf
    obtain ⟨f, hfm, rfl⟩ := List.mem_map.1 hf
    exact hsame f hfm) (by rw [hal]; exact hlen)
  rw [this] at hm
  cases hm
  refine ⟨rfl, ?_⟩
  rw [hlen, List.filter_congr fun f hf => hsame f hf]

/-- Going to the only field of a variant. -/
theorem variantAt_old (cfg : Cfg) {h : List Entry} (hh : ValidHistory h) {ss : List (VariantStep V W)} {k : Nat}
    (h1 : 1 ≤ k) (h2 : k ≤ h.length) (hs : ∀ s ∈ ss, ∀ f ∈ s.fields, f.SameDecl)
    (hA : AcceptedEnum (lastEntry (h.take k)) (ss.map VariantStep.new))
    (hA' : AcceptedEnum (lastEntry h) (ss.map VariantStep.new))
    (hc : EnumNotConverted h (ss.map VariantStep.new) k)
    (hkv : ∀ s ∈ ss, s.new.existsAt k = true → s.new.existsAt h.length = true)
    (hst : (lastEntry (h.take k)).optimised = true → StableDiscs (ss.map VariantStep.new) k h.length)
    {s : VariantStep V W} (hsm : s ∈ ss) (hsa : s.new.existsAt h.length = true)
    (hsame : s.new.existsAt k = true → ∀ f ∈ s.fields, f.new.existsAt h.length = f.new.existsAt k)
    {f : FieldStep V W} (hf : (s.fields.filter fun f => f.new.existsAt h.length) = [f])
    (hw : s.new.existsAt k = true → f.old.variantWire (lastEntry (h.take k)) = f.old.plain)
    (hread : s.new.existsAt k = true → f.old.plain.Reads false f.new.plain f.mig)
    {get : Get W β} {inner : W → Option β} (hg : s.new.existsAt k = true → get.FindsM f.old.plain f.mig inner) :
    Rd.FindsM (enumC cfg (h.take k) (variantsAsOf k (ss.map VariantStep.old))) (enumMig k h.length ss)
      (walkEnum cfg h (ss.map VariantStep.new) >>= variantAt (ss.map VariantStep.new) h.length s.new f.new get)
      (fun x => if x.variant = s.ident then
        match x.fields with
        | [y] => inner y
        | _ => none
      else none) := by
  intro x b x' hvx hb hm t
  have hrev : (lastEntry (h.take k)).revision = k := by
    have := hh.revision_get (hh.lastEntry_take h1 h2)
    omega
  have hlr := hh.lastEntry_revision
  obtain ⟨u, hum, d, bs, harm, hid, hue, hval, hbs, hwalk⟩ := walkEnum_old cfg hh h1 h2 hs hA hc hvx hb t
  have hua := hkv u hum hue
  obtain ⟨hxv, ws, hws, hmf⟩ := enumMig_kept hh h1 h2 hA hum hue hua hid hm
  obtain ⟨-, -, hlk⟩ := mem_variantArms.1 harm
  have hsn := List.mem_map_of_mem (f := VariantStep.new) hsm
  have hun := List.mem_map_of_mem (f := VariantStep.new) hum
  have hiff : ∀ w, w = (if (lastEntry (h.take k)).optimised then EnumRepr.borrowed bs.flatten d else .wire k d) →
      (w.isVariant (ss.map VariantStep.new) h.length s.new = true ↔ u.ident = s.ident) := by
    intro w hw
    split at hw
    · rename_i ho
      subst hw
      obtain ⟨d', hd'⟩ := hA'.arm_total hsn (by rw [hlr]; exact hsa)
      have hwd := discAt_of_arm hA' hd'
      have hud := discAt_of_arm hA (hrev ▸ harm)
      rw [hlr] at hwd
      rw [hrev] at hud
      have := hst ho u.new (List.mem_filter.2 ⟨hun, hue⟩) s.new (List.mem_filter.2 ⟨hsn, hsa⟩) d d' hud hwd
      rw [show (u.ident = s.ident) = (u.new.ident = s.new.ident) from rfl, this]
      simp only [EnumRepr.isVariant, lookup_of_discAt hwd]
      simp only [beq_iff_eq, Option.some.injEq]
      exact eq_comm
    · subst hw
      simp only [EnumRepr.isVariant]
      by_cases hse : s.new.existsAt k = true
      · rw [if_pos ⟨h1, h2, hse⟩]
        constructor
        · intro hq
          have hq : (discsAt (ss.map VariantStep.new) k).lookup s.new.ident = some d := by simpa using hq
          have h2 := mem_variantArms.2 ⟨hsn, hse, hq⟩
          have h3 := harm
          rw [← hrev] at h2 h3
          exact congrArg (fun a => a.2.ident) (hA.arm_disc h3 h2 rfl)
        · intro hi
          have : s.new.ident = u.new.ident := hi.symm
          rw [this, hlk]
          simp
      · rw [if_neg (fun h => hse h.2.2)]
        constructor
        · intro hq; simp at hq
        · intro hi
          have hua' := hua
          have hsa' := hsa
          rw [← hlr] at hua' hsa'
          have := hA'.same hun hua' hsn hsa' hi
          rw [this] at hue
          exact absurd hue hse
  by_cases hx : u.ident = s.ident
  · have hnd := hA'.nodup
    rw [hlr, List.filter_map, List.map_map] at hnd
    have hus : u = s := inj_of_nodup_map _ hnd (List.mem_filter.2 ⟨hum, hua⟩) (List.mem_filter.2 ⟨hsm, hsa⟩)
      (by simpa [VariantStep.new] using hx)
    subst hus
    obtain ⟨hww, hlen⟩ := enumMig_same (hsame hue) hws hmf
    simp only [hxv, if_true]
    rw [hww]
    have hko : (u.fields.filter fun f => f.new.existsAt k) = [f] := by
      rw [← hf]
      exact List.filter_congr fun f hfm => (hsame hue f hfm).symm
    have hao : aliveFields (u.fields.map (·.old)) k = [f.old] := by
      unfold aliveFields
      rw [List.filter_map]
      rw [show (u.fields.filter ((fun f => f.existsAt k) ∘ fun x => x.old)) = [f] from by
        rw [← hko]
        exact List.filter_congr fun g hgm => (hs u hum g hgm).exists k]
      rfl
    have hfl : ∀ xs : List V, migrateLive (fun s : FieldStep V W => s.new.existsAt k) FieldStep.mig u.fields xs =
        migrateLive (fun _ => true) FieldStep.mig [f] xs := by
      intro xs
      rw [← hko]
      generalize u.fields = fs
      induction fs generalizing xs with
      | nil => rfl
      | cons g gs ih =>
        unfold migrateLive
        by_cases hgk : g.new.existsAt k = true
        · rw [if_pos hgk, List.filter_cons_of_pos (by exact hgk)]
          simp only [if_true]
          cases xs with
          | nil => rfl
          | cons y ys => simp only [ih]
        · rw [if_neg hgk, List.filter_cons_of_neg (by exact hgk), ih]
          cases hgs : (gs.filter fun f => f.new.existsAt k) <;> simp [migrateLive]
    rw [hao] at hval hbs
    rw [hfl] at hws
    generalize x.fields = xs at *
    cases hbs with
    | @cons _ _ y ys z zs hz hzs =>
    cases hzs
    cases hval with
    | cons hy _ =>
    simp only [hw hue] at hy hz
    simp only [migrateLive, if_true, Option.bind_eq_bind, Option.bind_eq_some_iff] at hws
    obtain ⟨y', hy', _, hn, hws⟩ := hws
    cases hn
    cases hws
    simp only [List.flatten_cons, List.flatten_nil, List.append_nil] at hwalk hiff
    have hg := hg hue
    have hr := hread hue
    cases ho : (lastEntry (h.take k)).optimised with
    | true =>
      rw [ho] at hwalk hiff
      simp only [if_true] at hwalk hiff
      have hi := (hiff _ rfl).2 trivial
      refine ⟨t, ?_⟩
      rw [Rd.bind_of_ok hwalk]
      simp only [variantAt, hi, if_true]
      cases get with
      | decode out =>
        have hd := hr.read hy hz hy' []
        rw [List.append_nil] at hd
        simp only [EnumRepr.decodeVariant, hi, if_true, Rd.within, hd, Rd.lift_ok, Rd.pure_bind, hg y']
        rfl
      | walk m =>
        obtain ⟨r, hr⟩ := hg _ _ _ hy hz hy' []
        rw [List.append_nil] at hr
        simp only [EnumRepr.viewSingle, hi, if_true, Rd.pure_bind, Rd.within, hr]
        rfl
    | false =>
      rw [ho] at hwalk hiff
      simp only [Bool.false_eq_true, if_false] at hwalk hiff
      have hi := (hiff _ rfl).2 trivial
      rw [Rd.bind_of_ok hwalk]
      simp only [variantAt, hi, if_true]
      cases get with
      | decode out =>
        refine ⟨t, ?_⟩
        simp only [EnumRepr.decodeVariant, hi, if_true]
        rw [Rd.bind_of_ok (hr.read hy hz hy' _), hg y']
        rfl
      | walk m =>
        simp only [EnumRepr.intoVariant, hi, if_true]
        exact hg _ _ _ hy hz hy' _
  · simp only [hxv, hx, if_false]
    have hno : ∀ w, w = (if (lastEntry (h.take k)).optimised then EnumRepr.borrowed bs.flatten d else .wire k d) →
        w.isVariant (ss.map VariantStep.new) h.length s.new = false := by
      intro w hw
      cases hq : w.isVariant (ss.map VariantStep.new) h.length s.new with
      | false => rfl
      | true => exact absurd ((hiff w hw).1 hq) hx
    split at hwalk
    · rename_i ho
      simp only [ho, if_true] at hno
      refine ⟨t, ?_⟩
      rw [Rd.bind_of_ok hwalk]
      simp only [variantAt, hno _ rfl, Bool.false_eq_true, if_false]
      rfl
    · rename_i ho
      simp only [ho, Bool.false_eq_true, if_false] at hno
      refine ⟨bs.flatten ++ t, ?_⟩
      rw [Rd.bind_of_ok hwalk]
      simp only [variantAt, hno _ rfl, Bool.false_eq_true, if_false]
      rfl

/-- Decoding the only field of a variant of an enum that is converted first. -/
theorem variantAt_converted (cfg : Cfg) {h : List Entry} (hh : ValidHistory h) {vs : List (VariantDecl V)} {e : Entry}
    (he : e ∈ h) (hold : e.revision ≠ h.length) (hcv : enumHasConvert vs = true) (ho : (lastEntry h).optimised = false)
    (hA : AcceptedEnum (lastEntry h) vs) {v : VariantDecl V} (hv : v ∈ aliveVariants vs h.length) {f : FieldDecl V}
    (hf : aliveFields v.fields h.length = [f]) (hp : f.plain.Faithful) (hw : f.opts.fixed = false ∧ f.opts.specialised = false)
    {s t r b : Bytes} (hs : readU16 cfg s = .ok (e.revision, t)) {x : EnumVal V}
    (hd : (enumC cfg h vs).dec s = .ok (x, r)) (hvx : (enumC cfg h vs).valid x)
    (hb : (enumC cfg h vs).enc x = .ok b) {out : V → β} :
    ∃ r', (walkEnum cfg h vs >>= variantAt vs h.length v f (.decode out)) s =
      .ok (if x.variant = v.ident then
        match x.fields with
        | [y] => some (out y)
        | _ => none
      else none, r') := by
  have hlr := hh.lastEntry_revision
  obtain ⟨d, u, fb, harm, hid, hfb, hwalk⟩ := walkEnum_converted cfg h hh vs e he hold hcv ho hA s t hs x r b hd hb
  obtain ⟨hvm, hva⟩ := List.mem_filter.1 hv
  obtain ⟨hum, hua, hlk⟩ := mem_variantArms.1 harm
  have hiff : ∀ buf cur, (EnumRepr.converted buf cur d).isVariant vs h.length v = true ↔ x.variant = v.ident := by
    intro buf cur
    simp only [EnumRepr.isVariant, beq_iff_eq]
    constructor
    · intro hq
      have h2 := mem_variantArms.2 ⟨hvm, hva, hq⟩
      rw [← hlr] at h2
      have := hA.arm_disc harm h2 rfl
      rw [← hid]
      exact congrArg (fun a => a.2.ident) this
    · intro hi
      rw [← hi, ← hid, ← hlr]
      exact hlk
  refine ⟨r, ?_⟩
  rw [Rd.bind_of_ok hwalk]
  by_cases hx : x.variant = v.ident
  · have hi := (hiff (encU16 cfg h.length ++ (encU32 cfg d ++ fb)) (encU16 cfg h.length ++ encU32 cfg d).length).2 hx
    have huv : u = v := by
      rw [← hlr] at hva
      exact hA.same hum hua hvm hva (hid.trans hx)
    subst huv
    unfold enumC at hvx
    obtain ⟨d', v', harm', hid', hval, _⟩ := hvx
    have : v' = u := by
      obtain ⟨hvm', hva', _⟩ := mem_variantArms.1 harm'
      exact hA.same hvm' hva' hum hua (hid'.trans hx)
    subst this
    rw [validFields_iff, hlr, hf] at hval
    rw [hlr] at hfb
    have hwire : f.variantWire (lastEntry h) = f.plain := by
      simp [FieldDecl.variantWire, ho, FieldDecl.legacyC, hw.1, hw.2]
    obtain ⟨bs, hbs, rfl⟩ := serializeFields_ok (c := fun f => f.variantWire (lastEntry h)) _ _ _ (by rw [hf]; exact hval.length_eq) hfb
    rw [hf] at hbs
    generalize x.fields = xs at *
    cases hbs with
    | @cons _ _ y ys z zs hz hzs =>
    cases hzs
    cases hval with
    | cons hy _ =>
    simp only [hwire] at hy hz
    simp only [List.flatten_cons, List.flatten_nil, List.append_nil] at hi ⊢
    have hsl : sliceR (encU16 cfg h.length ++ (encU32 cfg d ++ z)) (encU16 cfg h.length ++ encU32 cfg d).length
        (encU16 cfg h.length ++ (encU32 cfg d ++ z)).length = .ok z := by
      rw [← List.append_assoc, sliceR_ok (by simp) (by simp)]
      unfold slice
      rw [List.take_length, List.drop_left]
    have hdz := hp.round_trip y z hy hz []
    rw [List.append_nil] at hdz
    simp only [variantAt, hi, if_true, hx, EnumRepr.decodeVariant, hsl, Rd.lift_ok, Rd.pure_bind, Rd.within, hdz]
    rfl
  · have hno := fun buf cur => (Bool.eq_false_iff (b := (EnumRepr.converted buf cur d).isVariant vs h.length v)).2
      (fun hq => hx ((hiff buf cur).1 hq))
    simp only [variantAt, hno, Bool.false_eq_true, if_false, hx]
    rfl

end Revision
