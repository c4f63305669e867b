import Verif.Model.ThirdIo
import Verif.Spec.Stream
import Verif.Spec.Sink
import Verif.Spec.Third

/-!
# The types of other crates with impls on arbitrary readers and writers
-/

namespace Revision

/-- The types of `chrono`, `geo` (a `Point` is a `Coord`), `rust_decimal` and `regex`, and the specialised `Vec<Decimal>`. -/
inductive Crate where
  | dateTime | naiveDate | naiveTime | timeDelta
  | coord | lineString | multiPoint | multiLineString | polygon | multiPolygon
  | decimal | decimals | regex
  deriving DecidableEq

/-- The values of each. -/
def Crate.X (δ ρ : Type) : Crate → Type
  | .dateTime => DateTime
  | .naiveDate => NaiveDate
  | .naiveTime => NaiveTime
  | .timeDelta => TimeDelta
  | .coord => Coord
  | .lineString => List Coord
  | .multiPoint => List Coord
  | .multiLineString => List (List Coord)
  | .polygon => Polygon
  | .multiPolygon => List Polygon
  | .decimal => δ
  | .decimals => List δ
  | .regex => ρ

/-- The impls of each on slices and `Vec<u8>`. -/
def Crate.codec (cfg : Cfg) (cap : Nat → Bool) (D : DecimalLib δ) (R : RegexLib ρ) : (i : Crate) → Codec (i.X δ ρ)
  | .dateTime => dateTimeC cfg
  | .naiveDate => naiveDateC cfg
  | .naiveTime => naiveTimeC cfg
  | .timeDelta => timeDeltaC cfg
  | .coord => coordC
  | .lineString => lineStringC cfg cap
  | .multiPoint => multiPointC cfg cap
  | .multiLineString => multiLineStringC cfg cap cap
  | .polygon => polygonC cfg cap cap
  | .multiPolygon => multiPolygonC cfg cap cap cap
  | .decimal => decimalC D
  | .decimals => decimalsC cfg cap D
  | .regex => regexC cfg cap R

/-- The impls of each on arbitrary readers and writers. -/
def Crate.io (cfg : Cfg) (cap : Nat → Bool) (D : DecimalLib δ) (R : RegexLib ρ) : (i : Crate) → Io (i.X δ ρ)
  | .dateTime => dateTimeIo cfg
  | .naiveDate => naiveDateIo cfg
  | .naiveTime => naiveTimeIo cfg
  | .timeDelta => timeDeltaIo cfg
  | .coord => coordIo
  | .lineString => lineStringIo cfg cap
  | .multiPoint => lineStringIo cfg cap
  | .multiLineString => multiLineStringIo cfg cap cap
  | .polygon => polygonIo cfg cap cap
  | .multiPolygon => multiPolygonIo cfg cap cap cap
  | .decimal => decimalIo D
  | .decimals => decimalsIo cfg cap D
  | .regex => regexIo cfg cap R

/-- The type universe over these types. -/
def Crate.env (cfg : Cfg) (cap : Nat → Bool) (D : DecimalLib δ) (R : RegexLib ρ) (caps : Ty Crate → Nat → Bool)
    (cmp : (t : Ty Crate) → t.denote (Crate.X δ ρ) → t.denote (Crate.X δ ρ) → Ordering)
    (eq : (t : Ty Crate) → t.denote (Crate.X δ ρ) → t.denote (Crate.X δ ρ) → Bool) : Env Crate where
  X := Crate.X δ ρ
  extC := Crate.codec cfg cap D R
  cap := caps
  cmp := cmp
  eq := eq

/-- The bitmap library on slices and `Vec<u8>`. -/
def BitmapIo.lib (L : BitmapIo β) : BitmapLib β where
  ser v := match (L.ser v).run .vec with
    | (.ok (), b, _) => .ok b
    | (.err e, _) => .err e
    | (.panic, _) => .panic
  de := L.de.onSlice

end Revision
