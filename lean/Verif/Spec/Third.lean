import Verif.Model.Third
import Verif.Model.Ty
import Verif.Spec.Laws
import Verif.Spec.Ty

/-! # Which values of other crates' types exist, and which of them are meant to be stored -/

namespace Revision

/-- What holds of every `chrono::NaiveTime`: within the day, less than two seconds of fraction
(`with_nanosecond` allows a leap second anywhere). -/
def NaiveTime.Exists (t : NaiveTime) : Prop := t.secs.toNat < 86400 ∧ t.frac.toNat < 2000000000

/-- A leap second only as the last second of a minute. -/
def NaiveTime.Regular (t : NaiveTime) : Prop := t.frac.toNat < 1000000000 ∨ t.secs.toNat % 60 = 59

/-- Hour, minute, second and nanosecond name a time of day. -/
def isTimeOfDay (h m s n : Nat) : Prop :=
  h < 24 ∧ m < 60 ∧ s < 60 ∧ (n < 1000000000 ∨ (n < 2000000000 ∧ s = 59))

/-- Every day of the proleptic Gregorian calendar from -262143-01-01 to 262142-12-31. -/
def isDate (y : Int) (m d : Nat) : Prop :=
  -262143 ≤ y ∧ y ≤ 262142 ∧ 1 ≤ m ∧ m ≤ 12 ∧ 1 ≤ d ∧ d ≤ 31 ∧
  (m = 4 ∨ m = 6 ∨ m = 9 ∨ m = 11 → d ≤ 30) ∧
  (m = 2 → d ≤ 29 ∧ (d = 29 → 4 ∣ y ∧ (100 ∣ y → 400 ∣ y)))

/-- What holds of every `chrono::NaiveDate`. -/
def NaiveDate.Exists (d : NaiveDate) : Prop := isDate d.year.toInt d.month.toNat d.day.toNat

/-- What holds of every `chrono::DateTime<Utc>`: within the calendar, less than two seconds of
fraction. -/
def DateTime.Exists (t : DateTime) : Prop :=
  -8334601228800 ≤ t.secs.toInt ∧ t.secs.toInt ≤ 8210266876799 ∧ t.nanos.toNat < 2000000000

/-- A leap second only as the last second of a minute. -/
def DateTime.Regular (t : DateTime) : Prop := t.nanos.toNat < 1000000000 ∨ t.secs.toInt % 60 = 59

/-- A duration in nanoseconds. -/
def TimeDelta.total (d : TimeDelta) : Int := d.secs.toInt * 1000000000 + d.nanos.toNat

/-- What holds of every `chrono::Duration`: at most `i64::MAX` milliseconds either way. -/
def TimeDelta.Exists (d : TimeDelta) : Prop :=
  d.nanos.toNat < 1000000000 ∧
  -(9223372036854775807 * 1000000) ≤ d.total ∧ d.total ≤ 9223372036854775807 * 1000000

/-- A NaN coordinate. -/
def Coord.hasNaN (c : Coord) : Prop := FloatTy.f64.IsNaN c.1 ∨ FloatTy.f64.IsNaN c.2

/-- The two are the same number: neither is NaN, and they have the same bits, or are zeros of either sign. -/
def F64.Same (a b : F64) : Prop :=
  ¬ FloatTy.f64.IsNaN a ∧ ¬ FloatTy.f64.IsNaN b ∧ (a = b ∨ ((a = 0#64 ∨ a = 0x8000000000000000#64) ∧
    (b = 0#64 ∨ b = 0x8000000000000000#64)))

/-- The ring is empty, or starts and ends at the same place, which no NaN does. -/
def IsRing (l : List Coord) : Prop :=
  ∀ a b, l.head? = some a → l.getLast? = some b → F64.Same a.1 b.1 ∧ F64.Same a.2 b.2

/-- The lengths fit the machine, and the allocator grants the vectors again on reading. -/
def geoFits (cap : Nat → Bool) (l : List α) : Prop := l.length < 2 ^ 64 ∧ (l ≠ [] → cap l.length = true)

/-- The types of other crates, as further types of the universe. -/
inductive Third where
  | dateTime | naiveDate | naiveTime | timeDelta
  | coord | lineString | multiLineString
  | decimal | regex | bitmap
  deriving DecidableEq

/-- The values of each; those of `Decimal`, `Regex` and the bitmaps are whatever their crates have. -/
def Third.X (δ ρ β : Type) : Third → Type
  | .dateTime => DateTime
  | .naiveDate => NaiveDate
  | .naiveTime => NaiveTime
  | .timeDelta => TimeDelta
  | .coord => Coord
  | .lineString => List Coord
  | .multiLineString => List (List Coord)
  | .decimal => δ
  | .regex => ρ
  | .bitmap => β

/-- The impls of each. -/
def Third.codec (cfg : Cfg) (cap : Nat → Bool) (D : DecimalLib δ) (R : RegexLib ρ) (B : BitmapLib β)
    (validB : β → Prop) : (i : Third) → Codec (i.X δ ρ β)
  | .dateTime => dateTimeC cfg
  | .naiveDate => naiveDateC cfg
  | .naiveTime => naiveTimeC cfg
  | .timeDelta => timeDeltaC cfg
  | .coord => coordC
  | .lineString => lineStringC cfg cap
  | .multiLineString => multiLineStringC cfg cap cap
  | .decimal => decimalC D
  | .regex => regexC cfg cap R
  | .bitmap => bitmapC B validB

/-- The type universe over these types, with any allocator and any orders. -/
def Third.env (cfg : Cfg) (D : DecimalLib δ) (R : RegexLib ρ) (B : BitmapLib β) (validB : β → Prop)
    (cap : Nat → Bool) (caps : Ty Third → Nat → Bool)
    (cmp : (t : Ty Third) → t.denote (Third.X δ ρ β) → t.denote (Third.X δ ρ β) → Ordering)
    (eq : (t : Ty Third) → t.denote (Third.X δ ρ β) → t.denote (Third.X δ ρ β) → Bool) : Env Third where
  X := Third.X δ ρ β
  extC := Third.codec cfg cap D R B validB
  cap := caps
  cmp := cmp
  eq := eq

/-- What is relied upon of `rust_decimal`: reading sixteen bytes gives a number that is written
and read back as itself. -/
def DecimalLib.Law (L : DecimalLib δ) : Prop := ∀ b, L.de (L.ser (L.de b)) = L.de b

/-- What is relied upon of `regex`: a parsed expression remembers its text. -/
def RegexLib.Law (L : RegexLib ρ) : Prop := ∀ s r, L.parse s = some r → L.asStr r = s

/-- What is relied upon of `roaring`: its own round trip, self-delimiting records, and that what it
reads it can write and read again. -/
structure BitmapLib.Law (L : BitmapLib β) (valid : β → Prop) : Prop where
  ser_ok : ∀ v, valid v → ∃ b, L.ser v = .ok b
  round_trip : ∀ v b, valid v → L.ser v = .ok b → ∀ t, L.de (b ++ t) = .ok (v, t)
  framed : L.de.Framed
  sound : L.de.Yields valid

end Revision
