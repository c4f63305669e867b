import Verif.Proofs.Features
import Verif.Props.Program
import Verif.Model.Third
import Verif.Spec.Demo

/-!
# Property C119: what the cargo feature `specialised-vectors` changes

Spec: `Spec/Features.lean` (`Ty.steady`, `Program.Steady`: the types and programs whose data has no `Vec` the feature
has another format for).  `fw` is the other cargo feature, `fixed-width-encoding`; `⟨fw, true⟩` is the crate built with
`specialised-vectors`, and `⟨fw, false⟩` without.
-/

namespace Revision

variable {ι : Type}

/-- C119: exactly the types with no specialised `Vec` in them are written alike with and without the feature. -/
theorem C119_types_iff (fw : Bool) (E : Env ι) (hx : ∀ i, ∃ x b, (E.extC i).valid x ∧ (E.extC i).enc x = .ok b)
    (t : Ty ι) (ha : t.arraysFull = true) :
    (∀ v, t.WF E v → (t.codec ⟨fw, true⟩ E).toVec v = (t.codec ⟨fw, false⟩ E).toVec v) ↔ t.steady fw = true := by
  constructor
  · intro h
    cases hs : t.steady fw with
    | true => rfl
    | false =>
      obtain ⟨v, hw, b, b', hne, hb, hb'⟩ := t.differs fw E hx ha hs
      have := h v hw
      unfold Codec.toVec at this
      rw [hb, hb'] at this
      exact absurd (Res.ok.inj this) hne
  · intro h v _
    exact congrFun (Ty.enc_steady (fun _ => rfl) t h) v

/-- Eight of the twelve integers, and `bool`; with `fixed-width-encoding` the unsigned ones are written alike. -/
example : (Ty.vec (.float .f32) : Ty Empty).steady false = true ∧ (Ty.vec .string : Ty Empty).steady false = true ∧
    (Ty.hashMap .string (.vec (.vec (.int .usize))) : Ty Empty).steady false = true ∧
    (Ty.vec (.int .u32) : Ty Empty).steady false = false ∧ (Ty.vec (.int .u32) : Ty Empty).steady true = true ∧
    (Ty.vec (.int .i32) : Ty Empty).steady true = false ∧
    (Ty.option (.pair .string (.vec .bool)) : Ty Empty).steady false = false ∧
    (Ty.array 3 (.int .u64) : Ty Empty).steady false = true := by decide

example : ¬ ∀ v : List (List Bool), (Ty.vec (.vec .bool)).WF demoEnv v →
    ((Ty.vec (.vec .bool)).codec ⟨false, true⟩ demoEnv).toVec v = ((Ty.vec (.vec .bool)).codec ⟨false, false⟩ demoEnv).toVec v :=
  fun h => absurd ((C119_types_iff false demoEnv (fun i => nomatch i) (.vec (.vec .bool)) rfl).1 h) (by decide)

/-- C119: data without specialised `Vec`s is read, and passed over, whichever way the writer and the reader were built.
Missing: the other types, for which it is false (`C119_misread_i16_false`). -/
theorem C119_read_partial {fw sp sp' : Bool} {E : Env ι} (hE : E.Lawful) (t : Ty ι) (ht : t.steady fw = true)
    (v : t.denote E.X) (hw : t.WF E v) (hf : t.Fits E v) :
    ∃ b, (t.codec ⟨fw, sp⟩ E).toVec v = .ok b ∧
      ∀ rest, (t.codec ⟨fw, sp'⟩ E).dec (b ++ rest) = .ok (v, rest) ∧
        (t.codec ⟨fw, sp'⟩ E).skip (b ++ rest) = .ok ((), rest) ∧
        (t.codec ⟨fw, sp'⟩ E).skipS (b ++ rest) = .ok ((), rest) := by
  have hv := t.valid_of ⟨fw, sp'⟩ hE v hw hf
  have L := t.codec_lawful ⟨fw, sp'⟩ hE
  obtain ⟨b, hb⟩ := L.enc_ok _ hv
  refine ⟨b, (congrFun (Ty.enc_steady (fun _ => rfl) t ht) v).trans hb, fun rest => ?_⟩
  have hd := L.round_trip _ b hv hb rest
  obtain ⟨u, hs⟩ := L.skip_agree _ _ _ hd
  exact ⟨hd, hs, by rw [L.skipS_eq]; exact hs⟩

example : (Ty.pair (.vec (.int .u8)) (.array 2 (.int .i16)) : Ty Empty).steady false = true ∧
    ((Ty.pair (.vec (.int .u8)) (.array 2 (.int .i16))).codec ⟨false, true⟩ demoEnv).toVec ([7, 8], [1, -1]) =
      .ok [2, 7, 8, 2, 1] ∧
    ((Ty.pair (.vec (.int .u8)) (.array 2 (.int .i16))).codec ⟨false, false⟩ demoEnv).fromSlice [2, 7, 8, 2, 1] =
      .ok ([7, 8], [1, -1]) := ⟨by decide, by decide +kernel, by decide +kernel⟩

/-- C119: `Vec<Decimal>` has a format of its own with the feature, which is the one it has without. -/
theorem C119_decimals {δ : Type} (cfg : Cfg) (cap : Nat → Bool) (L : DecimalLib δ) (l : List δ)
    (h : l.length * 16 < 2 ^ 64) :
    (decimalsC cfg cap L).toVec l = encSeq cfg (decimalC L).enc l := by
  have hl : ∀ l : List δ, encList (decimalC L).enc l = .ok (l.flatMap fun v => leBytes 16 (L.ser v).toNat) := by
    intro l
    induction l with
    | nil => rfl
    | cons a l ih => unfold encList; rw [ih]; rfl
  unfold Codec.toVec decimalsC encSeq
  dsimp only
  rw [hl]
  split
  · rename_i h0
    rw [List.length_eq_zero_iff.1 h0]
    exact congrArg Res.ok (List.append_nil _).symm
  · rfl

example : encSeq .default (decimalC (⟨id, id⟩ : DecimalLib (BitVec 128))).enc [5] =
    .ok [1, 5, 0, 0, 0, 0, 0, 0, 0, 0, 0, 0, 0, 0, 0, 0, 0] := by decide +kernel

/-- C119: a program none of whose current types has such a field writes the same bytes either way. -/
theorem C119_program_partial [DecidableEq ι] {fw sp sp' : Bool} (P : Program ι) (I : Impls P.kind) (hP : P.Steady fw)
    (n : Nat) (i : ι) (v : Values P.kind n i) :
    (P.codec ⟨fw, sp⟩ I n i).toVec v = (P.codec ⟨fw, sp'⟩ I n i).toVec v :=
  congrFun (P.enc_steady I hP n i) v

/-- C119: what was written by an older version of a program built one way is read by the current version built the
other way, as the value migrated.
Missing: the types with specialised `Vec`s, and what is missing from `C74_nested_migration_partial`. -/
theorem C119_migration_partial [DecidableEq ι] {fw sp sp' : Bool} (P : Program ι) (I I' : Impls P.kind) (r : ι → Nat)
    (hS : (P.asOf r).Steady fw) (hP : P.Readable ⟨fw, sp'⟩ r) (hcap : ∀ t k, I.cap t k = true → I'.cap t k = true)
    (n m : Nat) (hnm : n ≤ m) (i : ι) (v : Values P.kind n i) (b : Bytes)
    (hv : ((P.asOf r).codec ⟨fw, sp'⟩ I n i).valid v)
    (hb : ((P.asOf r).codec ⟨fw, sp⟩ I n i).toVec v = .ok b) (t : Bytes) :
    ((P.codec ⟨fw, sp'⟩ I' m i).dec (b ++ t)).ok? = (P.migrate ⟨fw, sp'⟩ I I' r n m i v).map (·, t) ∧
      (P.codec ⟨fw, sp'⟩ I' m i).skip (b ++ t) = .ok ((), t) ∧
      (P.codec ⟨fw, sp'⟩ I' m i).skipS (b ++ t) = .ok ((), t) := by
  have hb' : ((P.asOf r).codec ⟨fw, sp'⟩ I n i).enc v = .ok b :=
    (congrFun ((P.asOf r).enc_steady I hS n i) v).symm.trans hb
  have := C74_nested_migration_partial ⟨fw, sp'⟩ P I I' r hP hcap n m hnm i v b hv hb' t
  exact ⟨this.1, this.2.1, this.2.2.1⟩

/-- The types of all fields have no specialised `Vec` in them. -/
def Body.TypesSteady {K : ι → Kind} (fw : Bool) : {k : Kind} → Body K k → Prop
  | _, .struct fs => ∀ f ∈ fs, f.ty.steady fw = true
  | _, .enum vs => ∀ v ∈ vs, ∀ f ∈ v.fields, f.ty.steady fw = true
  | _, .foreign _ => True

/-- Such a program was written alike with either setting at every time in its history. -/
theorem Program.asOf_steady {fw : Bool} (P : Program ι) (h : ∀ i, (P.body i).TypesSteady fw) (r : ι → Nat) :
    (P.asOf r).Steady fw := by
  have hf : ∀ {K : ι → Kind} {fs : List (Field K)} {n : Nat}, (∀ f ∈ fs, f.ty.steady fw = true) →
      ∀ f ∈ fs.filterMap (Field.asOf n), f.ty.steady fw = true := by
    intro K fs n h f hf
    obtain ⟨g, hg, he⟩ := List.mem_filterMap.1 hf
    unfold Field.asOf at he
    split at he
    · cases he; exact h g hg
    · cases he
  have hB : ∀ {K : ι → Kind} {k : Kind} (B : Body K k) (n : Nat) (es : List Entry), B.TypesSteady fw →
      (B.asOf n).Steady fw es := by
   intro K k B n es
   cases B with
   | struct fs => exact fun h f hm _ => .inl (hf h f hm)
   | enum vs =>
     intro h v hv f hm _
     obtain ⟨w, hw, he⟩ := List.mem_filterMap.1 hv
     unfold Variant.asOf at he
     split at he
     · cases he; exact .inl (hf (h w hw) f hm)
     · cases he
   | foreign x => exact fun _ => trivial
  exact fun i => hB (P.body i) _ _ (h i)

theorem demoProgram_steady (r : DemoType → Nat) : (demoProgram.asOf r).Steady false :=
  demoProgram.asOf_steady (fun i => by
    cases i with
    | tree => exact forall_mem_pair (forall_mem_pair rfl rfl) (List.forall_mem_singleton.2 rfl)
    | doc => exact fun f hf => (List.mem_cons.1 hf).elim (· ▸ rfl) fun hf =>
        forall_mem_pair (p := fun f => f.ty.steady false = true) rfl rfl f hf) r

/-- `demoTree`, of revision 1, written by a build without the feature. -/
example (t : Bytes) : ((demoProgram.codec .default demoImpls 3 .tree).dec ([1, 1, 2, 1, 0, 5, 1, 1, 0] ++ t)).ok? =
    some (demoTreeNew, t) :=
  (C119_migration_partial (fw := false) (sp := false) (sp' := true) demoProgram demoImpls demoImpls demoOld
    (demoProgram_steady demoOld) (demoProgram_readable _ (.inl rfl) rfl) (fun _ _ h => h) 3 3
    (Nat.le_refl 3) .tree demoTree _ demoTree_valid rfl t).1

/-- ```
#[revisioned(revision(1))]
struct Samples { #[revision(specialised)] raw: Vec<u16>, names: Vec<String> }
#[revisioned(revision(1, optimised))]
struct Flags { #[revision(indexed_seq)] set: Vec<bool>, at: Vec<f32> }
``` -/
def steadyProgram : Program Bool where
  kind _ := .struct
  history | true => [⟨1, false, false⟩] | false => [⟨1, true, false⟩]
  body
    | true => .struct [
        ⟨"raw", { specialised := true }, .vec (.int .u16), fun _ _ => .ok ([] : List _), fun _ _ _ v => .ok v⟩,
        ⟨"names", {}, .vec .string, fun _ _ => .ok ([] : List _), fun _ _ _ v => .ok v⟩]
    | false => .struct [
        ⟨"set", { indexedSeq := true }, .vec .bool, fun _ _ => .ok ([] : List _), fun _ _ _ v => .ok v⟩,
        ⟨"at", {}, .vec (.float .f32), fun _ _ => .ok ([] : List _), fun _ _ _ v => .ok v⟩]

/-- Marked fields are written alike although a plain field of the type would not be. -/
example (sp sp' : Bool) (I : Impls steadyProgram.kind) (n : Nat) (i : Bool) (v : Values steadyProgram.kind n i) :
    (steadyProgram.codec ⟨false, sp⟩ I n i).toVec v = (steadyProgram.codec ⟨false, sp'⟩ I n i).toVec v := by
  refine C119_program_partial steadyProgram I (fun i => ?_) n i v
  cases i with
  | true => exact forall_mem_pair (fun _ => .inr (.inl ⟨rfl, rfl, rfl, _, rfl, rfl⟩)) (fun _ => .inl rfl)
  | false => exact forall_mem_pair (fun _ => .inr (.inr ⟨rfl, rfl, rfl, rfl⟩)) (fun _ => .inl rfl)

/-- C119 is false: `vec![1i16]` written by a build with the feature is read as `vec![-1]` by one without, and nothing
reports it. -/
theorem C119_misread_i16_false :
    ((Ty.vec (.int .i16)).codec ⟨false, true⟩ demoEnv).toVec [1] = .ok [1, 1, 0] ∧
    ((Ty.vec (.int .i16)).codec ⟨false, false⟩ demoEnv).fromSlice [1, 1, 0] = .ok [-1] := by
  constructor <;> decide +kernel

/-- C119 is false: `vec![5u16, 6]` is read as `vec![5, 0]`. -/
theorem C119_misread_u16_false :
    ((Ty.vec (.int .u16)).codec ⟨false, true⟩ demoEnv).toVec [5, 6] = .ok [2, 5, 0, 6, 0] ∧
    ((Ty.vec (.int .u16)).codec ⟨false, false⟩ demoEnv).fromSlice [2, 5, 0, 6, 0] = .ok [5, 0] := by
  constructor <;> decide +kernel

/-- C119 is false the other way round as well: `vec![true, true]` written by a build without the feature is read as
`vec![true, false]` by one with it. -/
theorem C119_misread_bool_false :
    ((Ty.vec .bool).codec ⟨false, false⟩ demoEnv).toVec [true, true] = .ok [2, 1, 1] ∧
    ((Ty.vec .bool).codec ⟨false, true⟩ demoEnv).fromSlice [2, 1, 1] = .ok [true, false] := by
  constructor <;> decide +kernel

end Revision
