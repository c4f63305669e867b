import Verif.Model.Std

/-!
# Types of other crates: `chrono`, `geo`, `rust_decimal`, `regex`, `roaring`

Models `/repo/src/implementations/{chrono,geo,decimal,regex,roaring}.rs` and their skip impls.
(`imbl`, `uuid`, `bytes` and `ordered-float` are in `Model/Std.lean`.)  What these impls call in the
other crates is modelled from the documented behaviour of the versions in `/repo/Cargo.toml:38-47`; each
such definition says so.
-/

namespace Revision

/-- A type written as the `parts` it is made of and rebuilt from them by `make`, a `None` becoming
`Error::Deserialize`; skips by `skip_mirror_both!`, `/repo/src/implementations/skip.rs:886-899`.
A value is promised to be stored when its parts make it again. -/
def convC (base : Codec β) (parts : α → Res β) (make : β → Option α) : Codec α :=
  Codec.mirror (fun v => ∃ p, parts v = .ok p ∧ base.valid p ∧ make p = some v)
    (fun v => do
      let p ← parts v
      base.enc p)
    (do
      let p ← base.dec
      match make p with
      | some v => pure v
      | none => Rd.fail .deserialize)

/-! ### chrono -/

/-- `chrono::NaiveTime`: seconds since midnight and nanoseconds; `1_000_000_000` and more
nanoseconds stand for a leap second (library): in `/repo/src/implementations/chrono.rs:62-86`. -/
structure NaiveTime where
  secs : BitVec 32
  frac : BitVec 32
  deriving DecidableEq

/-- `Timelike::{hour, minute, second, nanosecond}` (library): in `/repo/src/implementations/chrono.rs:65-68`. -/
def NaiveTime.parts (t : NaiveTime) : BitVec 32 × BitVec 32 × BitVec 32 × BitVec 32 :=
  (BitVec.ofNat 32 (t.secs.toNat / 3600), BitVec.ofNat 32 (t.secs.toNat / 60 % 60),
    BitVec.ofNat 32 (t.secs.toNat % 60), t.frac)

/-- `NaiveTime::from_hms_nano_opt` (library): in `/repo/src/implementations/chrono.rs:80`. -/
def NaiveTime.make : BitVec 32 × BitVec 32 × BitVec 32 × BitVec 32 → Option NaiveTime
  | (h, m, s, n) =>
    if h.toNat ≥ 24 ∨ m.toNat ≥ 60 ∨ s.toNat ≥ 60 ∨ (n.toNat ≥ 1000000000 ∧ s.toNat ≠ 59) ∨
        n.toNat ≥ 2000000000 then none
    else some ⟨BitVec.ofNat 32 (h.toNat * 3600 + m.toNat * 60 + s.toNat), n⟩

/-- `NaiveTime`, `/repo/src/implementations/chrono.rs:62-82`. -/
def naiveTimeC (cfg : Cfg) : Codec NaiveTime :=
  convC (pairC (intC cfg .u32) (pairC (intC cfg .u32) (pairC (intC cfg .u32) (intC cfg .u32))))
    (fun t => .ok t.parts) NaiveTime.make

/-- `chrono::NaiveDate` as year, month and day (library; it stores year, day of the year and flags):
in `/repo/src/implementations/chrono.rs:34-56`. -/
structure NaiveDate where
  year : BitVec 32
  month : BitVec 32
  day : BitVec 32
  deriving DecidableEq

/-- Gregorian leap years (library): in `/repo/src/implementations/chrono.rs:50`. -/
def leapYear (y : Int) : Bool := y % 4 = 0 && (y % 100 != 0 || y % 400 = 0)

/-- Days of a month, 0 when there is no such month (library): in `/repo/src/implementations/chrono.rs:50`. -/
def monthDays (y : Int) (m : Nat) : Nat :=
  match m with
  | 2 => if leapYear y then 29 else 28
  | 4 | 6 | 9 | 11 => 30
  | 1 | 3 | 5 | 7 | 8 | 10 | 12 => 31
  | _ => 0

/-- `NaiveDate::from_ymd_opt` (library): years -262143 to 262142: in `/repo/src/implementations/chrono.rs:50`. -/
def NaiveDate.make : BitVec 32 × BitVec 32 × BitVec 32 → Option NaiveDate
  | (y, m, d) =>
    if -262143 ≤ y.toInt ∧ y.toInt ≤ 262142 ∧ 1 ≤ d.toNat ∧ d.toNat ≤ monthDays y.toInt m.toNat then
      some ⟨y, m, d⟩
    else none

/-- `NaiveDate`, `/repo/src/implementations/chrono.rs:34-53`. -/
def naiveDateC (cfg : Cfg) : Codec NaiveDate :=
  convC (pairC (intC cfg .i32) (pairC (intC cfg .u32) (intC cfg .u32)))
    (fun t => .ok (t.year, t.month, t.day)) NaiveDate.make

/-- `chrono::DateTime<Utc>` as seconds since the epoch and nanoseconds (library; it stores a date
and a time of day): in `/repo/src/implementations/chrono.rs:7-28`. -/
structure DateTime where
  secs : BitVec 64
  nanos : BitVec 32
  deriving DecidableEq

/-- `Utc.timestamp_opt(secs, nanos).single()` (library): from -262143-01-01T00:00:00 to
262142-12-31T23:59:59, a leap second only at the end of a minute: in `/repo/src/implementations/chrono.rs:21`. -/
def DateTime.make : BitVec 64 × BitVec 32 → Option DateTime
  | (s, n) =>
    if -8334601228800 ≤ s.toInt ∧ s.toInt ≤ 8210266876799 ∧ n.toNat < 2000000000 ∧
        (n.toNat < 1000000000 ∨ s.toInt % 60 = 59) then some ⟨s, n⟩
    else none

/-- `DateTime<Utc>`, `/repo/src/implementations/chrono.rs:7-25`. -/
def dateTimeC (cfg : Cfg) : Codec DateTime :=
  convC (pairC (intC cfg .i64) (intC cfg .u32)) (fun t => .ok (t.secs, t.nanos)) DateTime.make

/-- `chrono::Duration` (`TimeDelta`): whole seconds rounded down and the nanoseconds above them
(library): in `/repo/src/implementations/chrono.rs:92-123`. -/
structure TimeDelta where
  secs : BitVec 64
  nanos : BitVec 32
  deriving DecidableEq

/-- `Duration::num_seconds`: rounded towards zero (library): in `/repo/src/implementations/chrono.rs:95`. -/
def TimeDelta.numSeconds (d : TimeDelta) : BitVec 64 :=
  if d.secs.toInt < 0 ∧ d.nanos.toInt > 0 then d.secs + 1 else d.secs

/-- `Duration::subsec_nanos`: of the sign of the duration (library): in `/repo/src/implementations/chrono.rs:96`. -/
def TimeDelta.subsecNanos (d : TimeDelta) : BitVec 32 :=
  if d.secs.toInt < 0 ∧ d.nanos.toInt > 0 then d.nanos - 1000000000#32 else d.nanos

/-- The numbers written, `/repo/src/implementations/chrono.rs:94-109`: back to rounding down,
`checked_sub` and `checked_add` failing with `Error::Serialize`. -/
def TimeDelta.parts (d : TimeDelta) : Res (BitVec 64 × BitVec 32) :=
  if d.subsecNanos.toInt < 0 then
    if -(2 ^ 63) ≤ d.numSeconds.toInt - 1 then
      if d.subsecNanos.toInt + 1000000000 < 2 ^ 31 then
        .ok (d.numSeconds - 1, d.subsecNanos + 1000000000#32)
      else .err .serialize
    else .err .serialize
  else .ok (d.numSeconds, d.subsecNanos)

/-- `u32::try_from(nano)` then `Duration::new` (library): at most `i64::MAX` milliseconds either
way.  `/repo/src/implementations/chrono.rs:117-121`. -/
def TimeDelta.make : BitVec 64 × BitVec 32 → Option TimeDelta
  | (s, n) =>
    if n.toInt < 0 then none
    else if s.toInt < -9223372036854776 ∨ s.toInt > 9223372036854775 ∨ n.toNat ≥ 1000000000 ∨
        (s.toInt = 9223372036854775 ∧ n.toNat > 807000000) ∨
        (s.toInt = -9223372036854776 ∧ n.toNat < 193000000) then none
    else some ⟨s, n⟩

/-- `chrono::Duration`, `/repo/src/implementations/chrono.rs:91-123`. -/
def timeDeltaC (cfg : Cfg) : Codec TimeDelta :=
  convC (pairC (intC cfg .i64) (intC cfg .i32)) TimeDelta.parts TimeDelta.make

/-! ### geo -/

/-- The bit pattern of an `f64`: in `/repo/src/implementations/geo.rs:7-26`. -/
abbrev F64 := BitVec (8 * 8)

/-- `==` of `f64`: no NaN, and the two zeros are equal (IEEE 754): in `/repo/src/implementations/geo.rs:88-96`. -/
def f64Eq (a b : F64) : Bool :=
  !isNaN 8 a && !isNaN 8 b && (a == b || (a.toNat % 2 ^ 63 == 0 && b.toNat % 2 ^ 63 == 0))

/-- `geo::Coord` and `Point`: in `/repo/src/implementations/geo.rs:7-53`. -/
abbrev Coord := F64 × F64

/-- `==` of `Coord`, derived (library): in `/repo/src/implementations/geo.rs:88-96`. -/
def Coord.eq (a b : Coord) : Bool := f64Eq a.1 b.1 && f64Eq a.2 b.2

/-- `Coord`, `/repo/src/implementations/geo.rs:7-25`, and `Point`, `:34-46`; skip mirrors decode. -/
def coordC : Codec Coord :=
  let c := pairC (floatC 8) (floatC 8)
  Codec.mirror c.valid c.enc c.dec

/-- `LineString`, `/repo/src/implementations/geo.rs:55-67`: its vector of coordinates. -/
def lineStringC (cfg : Cfg) (cap : Nat → Bool) : Codec (List Coord) :=
  let c := vecC cfg cap coordC
  Codec.mirror c.valid c.enc c.dec

/-- `MultiPoint`, `/repo/src/implementations/geo.rs:105-117`: its vector of points. -/
def multiPointC (cfg : Cfg) (cap : Nat → Bool) : Codec (List Coord) :=
  let c := vecC cfg cap coordC
  Codec.mirror c.valid c.enc c.dec

/-- `MultiLineString`, `/repo/src/implementations/geo.rs:126-138`. -/
def multiLineStringC (cfg : Cfg) (cap capL : Nat → Bool) : Codec (List (List Coord)) :=
  let c := vecC cfg capL (lineStringC cfg cap)
  Codec.mirror c.valid c.enc c.dec

/-- `LineString::is_closed`: `self.0.first() == self.0.last()` (library):
in `/repo/src/implementations/geo.rs:88-96`. -/
def ringClosed (l : List Coord) : Bool :=
  match l.head?, l.getLast? with
  | some a, some b => Coord.eq a b
  | _, _ => true

/-- `LineString::close`: repeat the first coordinate unless closed (library):
in `/repo/src/implementations/geo.rs:88-96`. -/
def closeRing (l : List Coord) : List Coord :=
  if ringClosed l then l else l ++ l.head?.toList

/-- `geo::Polygon`: in `/repo/src/implementations/geo.rs:76-96`. -/
structure Polygon where
  exterior : List Coord
  interiors : List (List Coord)
  deriving DecidableEq

/-- `Polygon::new`: closes every ring (library): in `/repo/src/implementations/geo.rs:88-96`. -/
def Polygon.new (e : List Coord) (is : List (List Coord)) : Polygon :=
  ⟨closeRing e, is.map closeRing⟩

/-- `Polygon`, `/repo/src/implementations/geo.rs:76-96`: the exterior, the number of interiors, the
interiors; rebuilt by `Polygon::new`.  The vector impl writes what the serialiser writes. -/
def polygonC (cfg : Cfg) (cap capL : Nat → Bool) : Codec Polygon :=
  convC (pairC (lineStringC cfg cap) (vecC cfg capL (lineStringC cfg cap)))
    (fun p => .ok (p.exterior, p.interiors)) (fun p => some (Polygon.new p.1 p.2))

/-- `MultiPolygon`, `/repo/src/implementations/geo.rs:147-159`. -/
def multiPolygonC (cfg : Cfg) (cap capL capP : Nat → Bool) : Codec (List Polygon) :=
  let c := vecC cfg capP (polygonC cfg cap capL)
  Codec.mirror c.valid c.enc c.dec

/-! ### rust_decimal -/

/-- What the impls use of `rust_decimal::Decimal`: `serialize` to and `deserialize` from sixteen
bytes, here a 128-bit number read little-endian: in `/repo/src/implementations/decimal.rs:12`, `:21`, `:57`, `:81`. -/
structure DecimalLib (δ : Type) where
  ser : δ → BitVec 128
  de : BitVec 128 → δ

/-- `Decimal`, `/repo/src/implementations/decimal.rs:9-23`; skip `skip.rs:801-817`. -/
def decimalC (L : DecimalLib δ) : Codec δ where
  valid v := L.de (L.ser v) = v
  enc v := .ok (leBytes 16 (L.ser v).toNat)
  dec := do
    let b ← readLE 128 16
    pure (L.de b)
  skip := Rd.advance 16
  skipS := Rd.consume 16
  check := (readLE 128 16).discard

/-- `Vec<Decimal>` under `specialised-vectors`, `/repo/src/implementations/decimal.rs:37-89`; skip
`skip.rs:251-259` and `:316-324`; `skip_check` decodes. -/
def decimalsC (cfg : Cfg) (cap : Nat → Bool) (L : DecimalLib δ) : Codec (List δ) where
  valid l := l.length * 16 < 2 ^ 64 ∧ (l ≠ [] → cap l.length = true) ∧ ∀ v ∈ l, L.de (L.ser v) = v
  enc l :=
    if l.length = 0 then .ok (encLen cfg 0)
    else if l.length * 16 < 2 ^ 64 then
      .ok (encLen cfg l.length ++ l.flatMap fun v => leBytes 16 (L.ser v).toNat)
    else .err .integerOverflow
  dec := do
    let n ← readLen cfg
    if n = 0 then pure []
    else do
      Rd.alloc (cap n)
      Rd.readN n (decimalC L).dec
  skip := do
    let n ← readLen cfg
    if n * 16 < 2 ^ 64 then Rd.advance (n * 16) else Rd.fail .integerOverflow
  skipS := do
    let n ← readLen cfg
    if n * 16 < 2 ^ 64 then Rd.consume (n * 16) else Rd.fail .integerOverflow
  check := (do
    let n ← readLen cfg
    if n = 0 then pure []
    else do
      Rd.alloc (cap n)
      Rd.readN n (decimalC L).dec).discard

/-! ### regex -/

/-- What the impls use of `regex::Regex`: the pattern it was built from, and `str::parse`:
in `/repo/src/implementations/regex.rs:11`, `:19`. -/
structure RegexLib (ρ : Type) where
  asStr : ρ → String
  parse : String → Option ρ

/-- `Regex`, `/repo/src/implementations/regex.rs:8-21`; skip and check `skip.rs:843-860`. -/
def regexC (cfg : Cfg) (cap : Nat → Bool) (L : RegexLib ρ) : Codec ρ where
  valid r := (stringC cfg cap).valid (L.asStr r) ∧ L.parse (L.asStr r) = some r
  enc r := .ok (encBytes cfg (strBytes (L.asStr r)))
  dec := do
    let s ← (stringC cfg cap).dec
    match L.parse s with
    | some r => pure r
    | none => Rd.fail .deserialize
  skip := (stringC cfg cap).skip
  skipS := (stringC cfg cap).skipS
  check := (do
    let s ← (stringC cfg cap).dec
    match L.parse s with
    | some r => pure r
    | none => Rd.fail .deserialize).discard

/-! ### roaring -/

/-- What the impls use of `roaring`'s bitmaps: `serialize_into` and `deserialize_from`:
in `/repo/src/implementations/roaring.rs:10`, `:17`, `:31`, `:38`. -/
structure BitmapLib (β : Type) where
  ser : β → Res Bytes
  de : Rd β

/-- `RoaringTreemap` and `RoaringBitmap`, `/repo/src/implementations/roaring.rs:7-21`, `:30-44`:
the library's format, its errors renamed. `valid` is what the library promises to read back. -/
def bitmapC (L : BitmapLib β) (valid : β → Prop) : Codec β :=
  Codec.mirror valid
    (fun v => match L.ser v with
      | .err _ => .err .serialize
      | x => x)
    (L.de.mapErr fun _ => .deserialize)

end Revision
