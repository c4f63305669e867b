import Verif.Proofs.Foreign
import Verif.Props.Depth
import Verif.Props.DeriveIo
import Verif.Props.Program
import Verif.Props.ThirdIo

/-!
# Fields of types whose impls are written by hand (C103)

The theorems about programs (C68, C73, C74, C90–C92, C94, C99–C101) are about programs some of whose types have impls
written by hand that keep a contract, `Foreign`.  Here: the impls for types of other crates keep it, and what follows
for a program that uses them.
-/

namespace Revision

section
variable (cfg : Cfg) (cap : Nat → Bool) {D : DecimalLib δ} {R : RegexLib ρ} (hD : D.Law) (hR : R.Law)

/-- A type of another crate as a type of a program; `decimals` is not a type but an encoding of vectors. -/
def Crate.foreign (i : Crate) (hi : i ≠ .decimals) : Foreign (i.X δ ρ) where
  codec := i.codec cfg cap D R
  io := i.io cfg cap D R
  dec_slice := (i.good cfg cap D R).models.dec
  skip_slice := (i.good cfg cap D R).models.skip
  check_slice := (i.good cfg cap D R).models.check
  to_vec := (i.good cfg cap D R).models.enc
  dec_short := (i.good cfg cap D R).short
  dec_sound := (i.good cfg cap D R).sound
  skip_short := (i.good cfg cap D R).models.skip_short
  write_all := (i.good cfg cap D R).all
  faithful := i.faithful cfg cap hD hR hi
  skipS_eq := by
    cases i with
    | decimal => exact (decimalC_lawful hD).skipS_eq
    | regex => exact (regexC_lawful hR cfg cap).skipS_eq
    | decimals => exact absurd rfl hi
    | _ => rfl
  heavy := i.heavy cfg cap D R

include hD hR in
/-- C103: the impls for the types of `chrono`, `geo`, `rust_decimal` and `regex` keep the contract. -/
theorem C103_contract (i : Crate) (hi : i ≠ .decimals) :
    ∃ x : Foreign (i.X δ ρ), x.codec = i.codec cfg cap D R ∧ x.io = i.io cfg cap D R :=
  ⟨i.foreign cfg cap hD hR hi, rfl, rfl⟩

end

/-! ### A program with them -/

/-- The types of the program. -/
inductive DataType where
  | value
  | date
  | shape
  | price
  deriving DecidableEq

section
variable (cfg : Cfg) (cap : Nat → Bool) (D : DecimalLib δ) (hD : D.Law)

/-- What each type is. -/
def dataKind (δ : Type) : DataType → Kind
  | .value => .enum
  | .date => .foreign DateTime
  | .shape => .foreign Polygon
  | .price => .foreign δ

/-- No regular expressions. -/
def noRegex : RegexLib Empty := ⟨nofun, fun _ => none⟩

theorem noRegex_law : noRegex.Law := nofun

/-- ```
#[revisioned(revision(1), revision(2))]
enum Value {
  Date(DateTime<Utc>),
  Shape { ring: Polygon, #[revision(start = 2, default_fn = "free")] price: Option<Decimal> },
  List(Vec<Value>),
  Fields(BTreeMap<String, Value>),
}
``` -/
def dataVariants : List (Variant (dataKind δ)) :=
  [ ⟨"Date", {}, [⟨"field_0", {}, .ext .date, fun _ _ => .panic, fun _ _ _ v => .ok v⟩], fun _ _ _ => .panic⟩,
    ⟨"Shape", {}, [⟨"ring", {}, .ext .shape, fun _ _ => .panic, fun _ _ _ v => .ok v⟩,
      ⟨"price", { start := some 2 }, .option (.ext .price), fun _ _ => .ok (none : Option _), fun _ _ _ v => .ok v⟩],
      fun _ _ _ => .panic⟩,
    ⟨"List", {}, [⟨"field_0", {}, .vec (.ext .value), fun _ _ => .panic, fun _ _ _ v => .ok v⟩], fun _ _ _ => .panic⟩,
    ⟨"Fields", {}, [⟨"field_0", {}, .btreeMap .string (.ext .value), fun _ _ => .panic, fun _ _ _ v => .ok v⟩],
      fun _ _ _ => .panic⟩]

/-- The histories. -/
def dataHistory : DataType → List Entry
  | .value => [⟨1, false, false⟩, ⟨2, false, false⟩]
  | _ => [⟨1, false, false⟩]

/-- The program. -/
def dataProgram : Program DataType where
  kind := dataKind δ
  history := dataHistory
  body
    | .value => .enum dataVariants
    | .date => .foreign (Crate.foreign cfg cap hD noRegex_law .dateTime nofun)
    | .shape => .foreign (Crate.foreign cfg cap hD noRegex_law .polygon nofun)
    | .price => .foreign (Crate.foreign cfg cap hD noRegex_law .decimal nofun)

/-- It reads what it wrote when `Value` was at either of its revisions. -/
theorem dataProgram_readable (r : DataType → Nat) (h1 : r .value = 1 ∨ r .value = 2)
    (h2 : ∀ i, i ≠ .value → r i = 1) : (dataProgram cfg cap D hD).Readable cfg r where
  history i := by
    show ValidHistory (dataHistory i)
    cases i <;> exact ⟨by decide, by decide, by decide⟩
  lower i := by
    by_cases h : i = .value
    · subst h; omega
    · have := h2 i h; omega
  upper i := by
    show r i ≤ (dataHistory i).length
    cases i with
    | value => show r .value ≤ 2; omega
    | date => rw [h2 .date nofun]; decide
    | shape => rw [h2 .shape nofun]; decide
    | price => rw [h2 .price nofun]; decide
  body i := by
    have hlt : ∀ n d, List.lookup n [("Fields", 3), ("List", 2), ("Shape", 1), ("Date", 0)] = some d → d < 2 ^ 32 := by
      intro n d h
      have := mem_of_lookup_eq_some _ _ _ h
      simp only [List.mem_cons, Prod.mk.injEq, List.not_mem_nil, or_false] at this
      omega
    have four : ∀ {p : Variant (dataKind δ) → Prop} {a b c d}, p a → p b → p c → p d → ∀ x ∈ [a, b, c, d], p x := by
      intro p a b c d ha hb hc hd x hx
      rcases List.mem_cons.1 hx with rfl | hx
      · exact ha
      · rcases List.mem_cons.1 hx with rfl | hx
        · exact hb
        · exact forall_mem_pair hc hd x hx
    have hsp : ∀ v ∈ (dataVariants : List (Variant (dataKind δ))), ∀ f ∈ v.fields, f.opts.specialised = false := by
      have h : (dataVariants : List (Variant (dataKind δ))).all (fun v => v.fields.all fun f => !f.opts.specialised) = true := rfl
      intro v hv f hf
      simpa using List.all_eq_true.1 (List.all_eq_true.1 h v hv) f hf
    cases i with
    | value =>
      unfold Program.entryAt
      rcases h1 with h | h <;> rw [h] <;>
      · refine ⟨⟨show List.Nodup ["Date", "Shape", "List", "Fields"] by decide,
          ⟨[("Fields", 3), ("List", 2), ("Shape", 1), ("Date", 0)], rfl, hlt⟩, fun h => (by cases h)⟩,
          fun h _ _ _ _ _ => (by cases h),
          fun _ => four (fun _ => show List.Nodup ["field_0"] by decide)
            (fun _ => show List.Nodup ["ring", "price"] by decide) (fun _ => show List.Nodup ["field_0"] by decide)
            (fun _ => show List.Nodup ["field_0"] by decide),
          fun _ v hv f hf => Or.inr (hsp v hv f hf)⟩
    | _ => trivial

variable (I : Impls (dataKind δ)) (htrans : ∀ n t, Std.TransCmp (I.cmp n t))

include htrans in
/-- C103: dates, polygons and decimals anywhere inside a value come back, are skipped and checked, with the value they
are in. -/
theorem C103_round_trip (n : Nat) (i : DataType) (v : Values (dataKind δ) n i) (b : Bytes)
    (hv : ((dataProgram cfg cap D hD).codec cfg I n i).valid v)
    (hb : ((dataProgram cfg cap D hD).codec cfg I n i).enc v = .ok b) (t : Bytes) :
    ((dataProgram cfg cap D hD).codec cfg I n i).dec (b ++ t) = .ok (v, t) ∧
      ((dataProgram cfg cap D hD).codec cfg I n i).skip (b ++ t) = .ok ((), t) ∧
      ((dataProgram cfg cap D hD).codec cfg I n i).skipS (b ++ t) = .ok ((), t) ∧
      ((dataProgram cfg cap D hD).codec cfg I n i).check (b ++ t) = .ok ((), t) :=
  C73_round_trip_partial cfg (dataProgram cfg cap D hD) I htrans
    (dataProgram_readable cfg cap D hD _ (.inr rfl) (fun i hi => by cases i <;> first | rfl | exact absurd rfl hi)) n i v b hv hb t

/-- C103: data that `Value` wrote at revision 1 is read, with the dates, polygons and decimals in it as they were. -/
theorem C103_migration (n m : Nat) (hnm : n ≤ m) (v : Values (dataKind δ) n .value)
    (b : Bytes) (hv : (((dataProgram cfg cap D hD).asOf fun _ => 1).codec cfg I n .value).valid v)
    (hb : (((dataProgram cfg cap D hD).asOf fun _ => 1).codec cfg I n .value).enc v = .ok b) (t : Bytes) :
    (((dataProgram cfg cap D hD).codec cfg I m .value).dec (b ++ t)).ok? =
      ((dataProgram cfg cap D hD).migrate cfg I I (fun _ => 1) n m .value v).map (·, t) :=
  (C74_nested_migration_partial cfg (dataProgram cfg cap D hD) I I (fun _ => 1)
    (dataProgram_readable cfg cap D hD _ (.inl rfl) (fun _ _ => rfl)) (fun _ _ h => h) n m hnm .value v b hv hb t).1

/-- C103: from any reader the same as from a slice. -/
theorem C103_read (buf : Nat → Nat) (n : Nat) (i : DataType) :
    SameAsSlice (((dataProgram cfg cap D hD).io cfg I n i).dec.onStream buf)
      ((dataProgram cfg cap D hD).codec cfg I n i).dec :=
  C90_decode cfg (dataProgram cfg cap D hD) I buf n i

theorem dataProgram_boolFree : (dataProgram cfg cap D hD).BoolFree cfg := by
  intro i _ f hf
  cases i with
  | value =>
    have : ((Body.enum dataVariants : Body (dataKind δ) .enum).fieldsAt 2).all (fun f => f.ty.boolFree cfg) = true := rfl
    exact List.all_eq_true.1 this f hf
  | _ => cases hf

/-- C103: to any writer: the record and success, or a proper part of it and an I/O error. -/
theorem C103_write (n : Nat) (i : DataType) (v : Values (dataKind δ) n i) (b : Bytes)
    (h : ((dataProgram cfg cap D hD).codec cfg I n i).toVec v = .ok b) (w : Sink) :
    (((((dataProgram cfg cap D hD).io cfg I n i).wr v).run w).1 = .ok () ∧
      ((((dataProgram cfg cap D hD).io cfg I n i).wr v).run w).2.1 = b) ∨
    (((((dataProgram cfg cap D hD).io cfg I n i).wr v).run w).1 = .err .io ∧
      ∃ c, c ≠ [] ∧ ((((dataProgram cfg cap D hD).io cfg I n i).wr v).run w).2.1 ++ c = b) :=
  C91_any_writer_partial cfg (dataProgram cfg cap D hD) I (dataProgram_boolFree cfg cap D hD) n i v b h w

end

/-! ### A value -/

/-- Decimals that are their sixteen bytes. -/
def rawDecimal : DecimalLib (BitVec 128) := ⟨id, id⟩

theorem rawDecimal_law : rawDecimal.Law := fun _ => rfl

/-- The program with them and an allocator that grants everything. -/
def rawProgram : Program DataType := dataProgram .default (fun _ => true) rawDecimal rawDecimal_law

def rawImpls : Impls rawProgram.kind where
  cap := fun _ _ => true
  cmp := fun _ _ _ _ => .eq
  eq := fun _ _ _ _ => false

/-- `List([Date(1 s after the epoch), Shape { ring: (0 0, 0 0), price: Some(7) }])` -/
def rawValue : Values rawProgram.kind 3 .value :=
  (⟨"List", [⟨.vec (.ext .value), ([
    ⟨"Date", [⟨.ext .date, (⟨1, 0⟩ : DateTime)⟩]⟩,
    ⟨"Shape", [⟨.ext .shape, (⟨[(0, 0)], []⟩ : Polygon)⟩,
      ⟨.option (.ext .price), (some (7 : BitVec 128) : Option _)⟩]⟩] : List (EnumVal _))⟩]⟩ : EnumVal _)

/-- The same at revision 1. -/
def rawValueOld : Values rawProgram.kind 3 .value :=
  (⟨"List", [⟨.vec (.ext .value), ([
    ⟨"Date", [⟨.ext .date, (⟨1, 0⟩ : DateTime)⟩]⟩,
    ⟨"Shape", [⟨.ext .shape, (⟨[(0, 0)], []⟩ : Polygon)⟩]⟩] : List (EnumVal _))⟩]⟩ : EnumVal _)

def rawBytes : Bytes :=
  [2, 2, 2, 2, 0, 2, 0, 2, 1, 1, 0, 0, 0, 0, 0, 0, 0, 0, 0, 0, 0, 0, 0, 0, 0, 0, 0, 1, 7, 0, 0, 0, 0, 0, 0, 0, 0, 0,
    0, 0, 0, 0, 0, 0]

def rawBytesOld : Bytes :=
  [1, 2, 2, 1, 0, 2, 0, 1, 1, 1, 0, 0, 0, 0, 0, 0, 0, 0, 0, 0, 0, 0, 0, 0, 0, 0, 0]

example : (rawProgram.codec .default rawImpls 3 .value).enc rawValue = .ok rawBytes := by decide +kernel

example : ((rawProgram.asOf fun _ => 1).codec .default rawImpls 3 .value).enc rawValueOld = .ok rawBytesOld := by
  decide +kernel

theorem rawDate_valid : (dateTimeC .default).valid (⟨1, 0⟩ : DateTime) := by
  rw [dateTimeC_valid]
  unfold DateTime.Exists DateTime.Regular
  decide

theorem rawShape_valid : (polygonC .default (fun _ => true) (fun _ => true)).valid (⟨[(0, 0)], []⟩ : Polygon) := by
  rw [polygonC_valid]
  refine ⟨⟨⟨by decide, fun _ => rfl⟩, ⟨by decide, fun _ => rfl⟩, nofun⟩, ?_, nofun⟩
  rw [← ringClosed_iff]
  decide

theorem rawValue_valid : (rawProgram.codec .default rawImpls 3 .value).valid rawValue := by
  refine ⟨2, _, mem_variantArms.2 ⟨.tail _ (.tail _ (.head _)), rfl, rfl⟩, rfl, ⟨⟨_, rfl, ?_⟩, rfl⟩, fun h => by cases h⟩
  refine ⟨by decide, fun _ => rfl, forall_mem_pair ?_ ?_⟩
  · exact ⟨0, _, mem_variantArms.2 ⟨.head _, rfl, rfl⟩, rfl, ⟨⟨_, rfl, rawDate_valid⟩, rfl⟩, fun h => by cases h⟩
  · exact ⟨1, _, mem_variantArms.2 ⟨.tail _ (.head _), rfl, rfl⟩, rfl,
      ⟨⟨_, rfl, rawShape_valid⟩, ⟨_, rfl, (rfl : rawDecimal.de (rawDecimal.ser 7) = 7)⟩, rfl⟩, fun h => by cases h⟩

theorem rawValueOld_valid : ((rawProgram.asOf fun _ => 1).codec .default rawImpls 3 .value).valid rawValueOld := by
  refine ⟨2, _, mem_variantArms.2 ⟨.tail _ (.tail _ (.head _)), rfl, rfl⟩, rfl, ⟨⟨_, rfl, ?_⟩, rfl⟩, fun h => by cases h⟩
  refine ⟨by decide, fun _ => rfl, forall_mem_pair ?_ ?_⟩
  · exact ⟨0, _, mem_variantArms.2 ⟨.head _, rfl, rfl⟩, rfl, ⟨⟨_, rfl, rawDate_valid⟩, rfl⟩, fun h => by cases h⟩
  · exact ⟨1, _, mem_variantArms.2 ⟨.tail _ (.head _), rfl, rfl⟩, rfl, ⟨⟨_, rfl, rawShape_valid⟩, rfl⟩, fun h => by cases h⟩

/-- The value comes back, whatever follows it. -/
example (t : Bytes) : (rawProgram.codec .default rawImpls 3 .value).dec (rawBytes ++ t) = .ok (rawValue, t) :=
  (C103_round_trip .default (fun _ => true) rawDecimal rawDecimal_law rawImpls (fun _ _ => constEq_trans) 3 .value
    rawValue _ rawValue_valid (by decide +kernel) t).1

/-- What was written at revision 1 is read with no price. -/
example (t : Bytes) : ((rawProgram.codec .default rawImpls 3 .value).dec (rawBytesOld ++ t)).ok? =
    some ((⟨"List", [⟨.vec (.ext .value), ([
      ⟨"Date", [⟨.ext .date, (⟨1, 0⟩ : DateTime)⟩]⟩,
      ⟨"Shape", [⟨.ext .shape, (⟨[(0, 0)], []⟩ : Polygon)⟩,
        ⟨.option (.ext .price), (none : Option (BitVec 128))⟩]⟩] : List (EnumVal _))⟩]⟩ : EnumVal _), t) :=
  C103_migration .default (fun _ => true) rawDecimal rawDecimal_law rawImpls 3 3 (Nat.le_refl _) rawValueOld _
    rawValueOld_valid (by decide +kernel) t

end Revision
