import Verif.Model.ThirdIo
import Verif.Proofs.DeriveIo
import Verif.Proofs.Third

/-! # Lemmas about types of other crates on arbitrary readers and writers -/

namespace Revision

/-- The impls are those on slices and `Vec<u8>`, tell the end of the input by `Error::Io` and nothing else by it, and
write with `write_all`. -/
structure Io.Good {α : Type} (p : Io α) (c : Codec α) : Prop where
  models : p.Models c
  short : p.dec.Short (· = .io)
  sound : p.dec.Sound (· = .io)
  all : ∀ v, (p.wr v).AllW

theorem mirrorIo_good {dec : Prog α} {wr : α → Wr} {c : Codec α} (hd : dec.onSlice = c.dec)
    (hs : c.skip = c.dec.discard) (hc : c.check = c.dec.discard) (he : ∀ v, (wr v).toRes = c.enc v)
    (h1 : dec.Short (· = .io)) (h2 : dec.Sound (· = .io)) (h3 : ∀ v, (wr v).AllW) : (mirrorIo dec wr).Good c where
  models :=
    { dec := hd
      skip := by show dec.discard.onSlice = _; rw [Prog.onSlice_discard, hd, hs]
      check := by show dec.discard.onSlice = _; rw [Prog.onSlice_discard, hd, hc]
      enc := he
      skip_short := h1.discard
      small := fun v => (h3 v).small }
  short := h1
  sound := h2
  all := h3

theorem convP_slice {base : Prog β} {c : Codec β} (h : base.onSlice = c.dec) (parts : α → Res β) (make : β → Option α) :
    (convP base make).onSlice = (convC c parts make).dec := by
  rw [convP, Prog.onSlice_bind, h]
  show _ = (c.dec >>= _)
  congr 1
  funext p
  cases make p <;> rfl

theorem convP_short {base : Prog β} {K} (h : base.Short K) (make : β → Option α) : (convP base make).Short K :=
  h.bind fun p => by cases make p <;> trivial

theorem convP_sound {base : Prog β} (h : base.Sound (· = .io)) (make : β → Option α) :
    (convP base make).Sound (· = .io) :=
  Prog.IoSound.bind h fun p => by
    cases make p
    · exact Prog.IoSound.fail (by simp)
    · trivial

theorem convW_toRes {base : β → Wr} {c : Codec β} (h : ∀ p, (base p).toRes = c.enc p) (parts : α → Res β)
    (make : β → Option α) (v : α) : (convW base parts v).toRes = (convC c parts make).enc v := by
  show _ = (parts v >>= fun p => c.enc p)
  rw [convW]
  cases parts v with
  | ok p => exact h p
  | err e => rfl
  | panic => rfl

theorem convW_all {base : β → Wr} (h : ∀ p, (base p).AllW) (parts : α → Res β) (v : α) : (convW base parts v).AllW := by
  rw [convW]
  cases parts v with
  | ok p => exact h p
  | err e => exact .fail e
  | panic => exact Wr.AllW.panic

theorem convIo_good {base : Prog β} {wr : β → Wr} {c : Codec β} (hd : base.onSlice = c.dec)
    (he : ∀ v, (wr v).toRes = c.enc v) (h1 : base.Short (· = .io)) (h2 : base.Sound (· = .io)) (h3 : ∀ v, (wr v).AllW)
    (parts : α → Res β) (make : β → Option α) :
    (mirrorIo (convP base make) (convW wr parts)).Good (convC c parts make) :=
  mirrorIo_good (convP_slice hd parts make) rfl rfl (convW_toRes he parts make) (convP_short h1 make)
    (convP_sound h2 make) (convW_all h3 parts)

theorem two_slice {a : Prog α} {b : Prog β} {ca : Codec α} {cb : Codec β} (ha : a.onSlice = ca.dec)
    (hb : b.onSlice = cb.dec) :
    Prog.onSlice (do
      let x ← a
      let y ← b
      pure (x, y)) = (pairC ca cb).dec := by
  simp [pairC, ha, hb]

theorem three_slice {a : Prog α} {b : Prog β} {c : Prog γ} {ca : Codec α} {cb : Codec β} {cc : Codec γ}
    (ha : a.onSlice = ca.dec) (hb : b.onSlice = cb.dec) (hc : c.onSlice = cc.dec) :
    Prog.onSlice (do
      let x ← a
      let y ← b
      let z ← c
      pure (x, y, z)) = (pairC ca (pairC cb cc)).dec := by
  simp [pairC, ha, hb, hc, Rd.bind_assoc]

theorem four_slice {a : Prog α} {b : Prog β} {c : Prog γ} {d : Prog δ} {ca : Codec α} {cb : Codec β} {cc : Codec γ}
    {cd : Codec δ} (ha : a.onSlice = ca.dec) (hb : b.onSlice = cb.dec) (hc : c.onSlice = cc.dec)
    (hd : d.onSlice = cd.dec) :
    Prog.onSlice (do
      let x ← a
      let y ← b
      let z ← c
      let w ← d
      pure (x, y, z, w)) = (pairC ca (pairC cb (pairC cc cd))).dec := by
  simp [pairC, ha, hb, hc, hd, Rd.bind_assoc]

theorem int_slice (cfg : Cfg) (k : IntTy) : (Prog.decInt cfg k).onSlice = (intC cfg k).dec :=
  Prog.onSlice_decInt cfg k

theorem naiveTimeIo_good (cfg : Cfg) : (naiveTimeIo cfg).Good (naiveTimeC cfg) := by
  refine convIo_good ?_ ?_ ?_ ?_ ?_ _ _
  · exact four_slice (int_slice _ _) (int_slice _ _) (int_slice _ _) (int_slice _ _)
  · intro v
    simp only [Wr.toRes_andThen, Wr.toRes_all, pairC]
    rfl
  · exact .bind (Prog.Short.decInt (K := (· = .io)) rfl _ _) fun _ => .bind (Prog.Short.decInt (K := (· = .io)) rfl _ _) fun _ => .bind (Prog.Short.decInt (K := (· = .io)) rfl _ _) fun _ => .bind (Prog.Short.decInt (K := (· = .io)) rfl _ _) fun _ => trivial
  · exact Prog.IoSound.bind (.decInt _ _) fun _ => Prog.IoSound.bind (.decInt _ _) fun _ => Prog.IoSound.bind (.decInt _ _) fun _ => Prog.IoSound.bind (.decInt _ _) fun _ => trivial
  · exact fun _ => (Wr.AllW.all _).andThen ((Wr.AllW.all _).andThen ((Wr.AllW.all _).andThen (.all _)))

theorem naiveDateIo_good (cfg : Cfg) : (naiveDateIo cfg).Good (naiveDateC cfg) := by
  refine convIo_good ?_ ?_ ?_ ?_ ?_ _ _
  · exact three_slice (int_slice _ _) (int_slice _ _) (int_slice _ _)
  · intro v
    simp only [Wr.toRes_andThen, Wr.toRes_all, pairC]
    rfl
  · exact .bind (Prog.Short.decInt (K := (· = .io)) rfl _ _) fun _ => .bind (Prog.Short.decInt (K := (· = .io)) rfl _ _) fun _ => .bind (Prog.Short.decInt (K := (· = .io)) rfl _ _) fun _ => trivial
  · exact Prog.IoSound.bind (.decInt _ _) fun _ => Prog.IoSound.bind (.decInt _ _) fun _ => Prog.IoSound.bind (.decInt _ _) fun _ => trivial
  · exact fun _ => (Wr.AllW.all _).andThen ((Wr.AllW.all _).andThen (.all _))

theorem dateTimeIo_good (cfg : Cfg) : (dateTimeIo cfg).Good (dateTimeC cfg) := by
  refine convIo_good ?_ ?_ ?_ ?_ ?_ _ _
  · exact two_slice (int_slice _ _) (int_slice _ _)
  · intro v
    simp only [Wr.toRes_andThen, Wr.toRes_all, pairC]
    rfl
  · exact .bind (Prog.Short.decInt (K := (· = .io)) rfl _ _) fun _ => .bind (Prog.Short.decInt (K := (· = .io)) rfl _ _) fun _ => trivial
  · exact Prog.IoSound.bind (.decInt _ _) fun _ => Prog.IoSound.bind (.decInt _ _) fun _ => trivial
  · exact fun _ => (Wr.AllW.all _).andThen (.all _)

theorem timeDeltaIo_good (cfg : Cfg) : (timeDeltaIo cfg).Good (timeDeltaC cfg) := by
  refine convIo_good ?_ ?_ ?_ ?_ ?_ _ _
  · exact two_slice (int_slice _ _) (int_slice _ _)
  · intro v
    simp only [Wr.toRes_andThen, Wr.toRes_all, pairC]
    rfl
  · exact .bind (Prog.Short.decInt (K := (· = .io)) rfl _ _) fun _ => .bind (Prog.Short.decInt (K := (· = .io)) rfl _ _) fun _ => trivial
  · exact Prog.IoSound.bind (.decInt _ _) fun _ => Prog.IoSound.bind (.decInt _ _) fun _ => trivial
  · exact fun _ => (Wr.AllW.all _).andThen (.all _)

theorem coordIo_good : coordIo.Good coordC :=
  mirrorIo_good
    (by simp only [Prog.onSlice_bind, Prog.onSlice_readLE, Prog.onSlice_pure]; rfl)
    rfl rfl
    (fun v => by simp [coordC, pairC, floatC, Codec.mirror])
    (.bind (.readLE (K := (· = .io)) rfl _ _) fun _ => .bind (.readLE (K := (· = .io)) rfl _ _) fun _ => trivial)
    (Prog.IoSound.bind (.readLE _ _) fun _ => Prog.IoSound.bind (.readLE _ _) fun _ => trivial)
    (fun _ => (Wr.AllW.all _).andThen (.all _))

theorem decVec_slice (cfg : Cfg) (cap : Nat → Bool) {m : Prog α} {c : Codec α} (h : m.onSlice = c.dec) :
    (Prog.decVec cfg cap m).onSlice = (vecC cfg cap c).dec := by
  simp [Prog.decVec, vecC, h]

/-- A vector whose impl forwards to the element-wise `Vec<T>` and mirrors its skips. -/
theorem vecIo_good (cfg : Cfg) (cap : Nat → Bool) {p : Io α} {c : Codec α} (h : p.Good c) :
    (mirrorIo (Prog.decVec cfg cap p.dec) (Wr.elems cfg p.wr)).Good
      (Codec.mirror (vecC cfg cap c).valid (vecC cfg cap c).enc (vecC cfg cap c).dec) :=
  mirrorIo_good (decVec_slice cfg cap h.models.dec) rfl rfl (Wr.toRes_elems cfg _ _ h.models.enc)
    (.decVec (K := (· = .io)) rfl cfg cap h.short) (Prog.IoSound.decVec cfg cap h.sound) (.elems cfg h.all)

theorem lineStringIo_good (cfg : Cfg) (cap : Nat → Bool) : (lineStringIo cfg cap).Good (lineStringC cfg cap) :=
  vecIo_good cfg cap coordIo_good

theorem multiPointIo_good (cfg : Cfg) (cap : Nat → Bool) : (lineStringIo cfg cap).Good (multiPointC cfg cap) :=
  vecIo_good cfg cap coordIo_good

theorem multiLineStringIo_good (cfg : Cfg) (cap capL : Nat → Bool) :
    (multiLineStringIo cfg cap capL).Good (multiLineStringC cfg cap capL) :=
  vecIo_good cfg capL (lineStringIo_good cfg cap)

theorem polygonIo_good (cfg : Cfg) (cap capL : Nat → Bool) : (polygonIo cfg cap capL).Good (polygonC cfg cap capL) := by
  have hl := lineStringIo_good cfg cap
  refine mirrorIo_good ?_ rfl rfl ?_
    (.bind hl.short fun _ => .bind (.decVec (K := (· = .io)) rfl cfg capL hl.short) fun _ => trivial)
    (Prog.IoSound.bind hl.sound fun _ => Prog.IoSound.bind (.decVec cfg capL hl.sound) fun _ => trivial)
    (fun _ => (hl.all _).andThen <| (Wr.AllW.all _).andThen (.each hl.all _))
  · simp only [Prog.onSlice_bind, Prog.onSlice_pure, hl.models.dec, decVec_slice cfg capL hl.models.dec]
    show _ = ((pairC _ _).dec >>= _)
    simp [pairC, Rd.bind_assoc]
  · intro p
    show _ = (pairC _ _).enc (p.exterior, p.interiors)
    simp only [pairC, Wr.toRes_andThen, hl.models.enc, Wr.len, Wr.toRes_all, vecC, Wr.toRes_each _ _ hl.models.enc]
    cases (lineStringC cfg cap).enc p.exterior <;> rfl

theorem multiPolygonIo_good (cfg : Cfg) (cap capL capP : Nat → Bool) :
    (multiPolygonIo cfg cap capL capP).Good (multiPolygonC cfg cap capL capP) :=
  vecIo_good cfg capP (polygonIo_good cfg cap capL)

theorem decimal_dec_slice (L : DecimalLib δ) : (decimalIo L).dec.onSlice = (decimalC L).dec := by
  simp only [decimalIo, Prog.onSlice_bind, Prog.onSlice_readLE, Prog.onSlice_pure]
  rfl

theorem decimalIo_good (L : DecimalLib δ) : (decimalIo L).Good (decimalC L) where
  models :=
    { dec := decimal_dec_slice L
      skip := Prog.onSlice_advance 16
      check := by
        show (Prog.discard (decimalIo L).dec).onSlice = _
        rw [Prog.onSlice_discard, decimal_dec_slice]
        simp [decimalC, Rd.discard, Rd.bind_assoc]
      enc := fun v => Wr.toRes_all _
      skip_short := .advance (K := (· = .io)) rfl 16
      small := fun v => (Wr.AllW.all _).small }
  short := .bind (.readLE (K := (· = .io)) rfl _ _) fun _ => trivial
  sound := Prog.IoSound.bind (.readLE _ _) fun _ => trivial
  all := fun _ => .all _

theorem decimals_dec_slice (cfg : Cfg) (cap : Nat → Bool) (L : DecimalLib δ) :
    (decimalsIo cfg cap L).dec.onSlice = (decimalsC cfg cap L).dec := by
  simp only [decimalsIo, Prog.onSlice_bind, Prog.onSlice_readLen, Prog.onSlice_ite, Prog.onSlice_pure,
    Prog.onSlice_alloc, Prog.onSlice_readN, decimal_dec_slice]
  rfl

theorem decimalsIo_good (cfg : Cfg) (cap : Nat → Bool) (L : DecimalLib δ) :
    (decimalsIo cfg cap L).Good (decimalsC cfg cap L) where
  models :=
    { dec := decimals_dec_slice cfg cap L
      skip := by
        simp only [decimalsIo, Prog.onSlice_bind, Prog.onSlice_readLen, Prog.onSlice_ite, Prog.onSlice_advance,
          Prog.onSlice_fail]
        rfl
      check := by
        show (Prog.discard (decimalsIo cfg cap L).dec).onSlice = _
        rw [Prog.onSlice_discard, decimals_dec_slice]
        rfl
      enc := fun l => by
        simp only [decimalsIo, decimalsC, Wr.toRes_andThen, Wr.len, Wr.toRes_all]
        split
        · next h => rw [h]; simp
        · split
          · simp
          · rfl
      skip_short := .bind (.readLen (K := (· = .io)) rfl cfg) fun _ => .ite (.advance (K := (· = .io)) rfl _) (.fail _)
      small := fun l => ((Wr.AllW.all _).andThen (.ite .done (.ite (.all _) (.fail _)))).small }
  short := .bind (.readLen (K := (· = .io)) rfl cfg) fun _ => .ite trivial <| .bind (.alloc _) fun _ =>
    .readN _ (.bind (.readLE (K := (· = .io)) rfl _ _) fun _ => trivial)
  sound := Prog.IoSound.bind (.readLen cfg) fun _ => .ite trivial <| Prog.IoSound.bind (.alloc _) fun _ =>
    .readN _ (Prog.IoSound.bind (.readLE _ _) fun _ => trivial)
  all := fun _ => (Wr.AllW.all _).andThen (.ite .done (.ite (.all _) (.fail _)))

theorem regex_dec_slice (cfg : Cfg) (cap : Nat → Bool) (L : RegexLib ρ) :
    (regexIo cfg cap L).dec.onSlice = (regexC cfg cap L).dec := by
  show (convP _ _).onSlice = _
  rw [convP, Prog.onSlice_bind, Prog.onSlice_decString]
  show _ = ((stringC cfg cap).dec >>= _)
  congr 1
  funext p
  cases L.parse p <;> rfl

theorem regexIo_good (cfg : Cfg) (cap : Nat → Bool) (L : RegexLib ρ) : (regexIo cfg cap L).Good (regexC cfg cap L) where
  models :=
    { dec := regex_dec_slice cfg cap L
      skip := by
        show (Prog.skipBytes cfg).onSlice = (stringC cfg cap).skip
        simp [Prog.skipBytes, stringC, skipBytes]
      check := by
        show (Prog.discard (regexIo cfg cap L).dec).onSlice = _
        rw [Prog.onSlice_discard, regex_dec_slice]
        rfl
      enc := fun r => Wr.toRes_bytes cfg _
      skip_short := .bind (.readLen (K := (· = .io)) rfl cfg) fun _ => .advance (K := (· = .io)) rfl _
      small := fun r => (Wr.AllW.bytes cfg _).small }
  short := convP_short (.decString (K := (· = .io)) rfl cfg cap) _
  sound := convP_sound (Prog.IoSound.decString cfg cap) _
  all := fun _ => .bytes cfg _

end Revision
