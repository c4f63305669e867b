import Verif.Model.Third
import Verif.Model.DeriveIo

/-!
# Types of other crates on arbitrary readers and writers

`Verif.Model.Third` models the impls for `chrono`, `geo`, `rust_decimal`, `regex` and `roaring` on slices
and `Vec<u8>`.  They are generic over `R: std::io::Read` and `W: std::io::Write`; here they are modelled
again, read by read and write by write.
-/

namespace Revision

/-- An impl that skips and checks by decoding and dropping the value: `skip_mirror_both!`,
`/repo/src/implementations/skip.rs:18-35`, `:889-902`. -/
def mirrorIo (dec : Prog α) (wr : α → Wr) : Io α where
  dec := dec
  skip := dec.discard
  check := dec.discard
  wr := wr

/-- Reading the parts and making the value of them, a `None` becoming `Error::Deserialize`:
as in `/repo/src/implementations/chrono.rs:50`, `:80`. -/
def convP (base : Prog β) (make : β → Option α) : Prog α := do
  let p ← base
  match make p with
  | some v => pure v
  | none => Prog.fail .deserialize

/-- Taking the value apart, then writing the parts: as in `/repo/src/implementations/chrono.rs:10-11`, `:65-68`. -/
def convW (base : β → Wr) (parts : α → Res β) (v : α) : Wr :=
  match parts v with
  | .ok p => base p
  | .err e => .fail e
  | .panic => ⟨[], .panic⟩

/-! ### chrono -/

/-- `NaiveTime`, `/repo/src/implementations/chrono.rs:62-82`. -/
def naiveTimeIo (cfg : Cfg) : Io NaiveTime :=
  mirrorIo
    (convP (do
        let h ← Prog.decInt cfg .u32
        let m ← Prog.decInt cfg .u32
        let s ← Prog.decInt cfg .u32
        let n ← Prog.decInt cfg .u32
        pure (h, m, s, n)) NaiveTime.make)
    (convW (fun p => (Wr.all (encInt cfg .u32 p.1)).andThen <| (Wr.all (encInt cfg .u32 p.2.1)).andThen <|
        (Wr.all (encInt cfg .u32 p.2.2.1)).andThen (Wr.all (encInt cfg .u32 p.2.2.2)))
      (fun t => .ok t.parts))

/-- `NaiveDate`, `/repo/src/implementations/chrono.rs:34-53`. -/
def naiveDateIo (cfg : Cfg) : Io NaiveDate :=
  mirrorIo
    (convP (do
        let y ← Prog.decInt cfg .i32
        let m ← Prog.decInt cfg .u32
        let d ← Prog.decInt cfg .u32
        pure (y, m, d)) NaiveDate.make)
    (convW (fun p => (Wr.all (encInt cfg .i32 p.1)).andThen <| (Wr.all (encInt cfg .u32 p.2.1)).andThen
        (Wr.all (encInt cfg .u32 p.2.2)))
      (fun t => .ok (t.year, t.month, t.day)))

/-- `DateTime<Utc>`, `/repo/src/implementations/chrono.rs:7-25`. -/
def dateTimeIo (cfg : Cfg) : Io DateTime :=
  mirrorIo
    (convP (do
        let s ← Prog.decInt cfg .i64
        let n ← Prog.decInt cfg .u32
        pure (s, n)) DateTime.make)
    (convW (fun p => (Wr.all (encInt cfg .i64 p.1)).andThen (Wr.all (encInt cfg .u32 p.2)))
      (fun t => .ok (t.secs, t.nanos)))

/-- `chrono::Duration`, `/repo/src/implementations/chrono.rs:91-123`. -/
def timeDeltaIo (cfg : Cfg) : Io TimeDelta :=
  mirrorIo
    (convP (do
        let s ← Prog.decInt cfg .i64
        let n ← Prog.decInt cfg .i32
        pure (s, n)) TimeDelta.make)
    (convW (fun p => (Wr.all (encInt cfg .i64 p.1)).andThen (Wr.all (encInt cfg .i32 p.2))) TimeDelta.parts)

/-! ### geo -/

/-- `Coord`, `/repo/src/implementations/geo.rs:7-25`, and `Point`, `:34-46`. -/
def coordIo : Io Coord :=
  mirrorIo
    (do
      let x ← Prog.readLE (8 * 8) 8
      let y ← Prog.readLE (8 * 8) 8
      pure (x, y))
    (fun c => (Wr.all (leBytes 8 c.1.toNat)).andThen (.all (leBytes 8 c.2.toNat)))

/-- `LineString`, `/repo/src/implementations/geo.rs:55-67`, and `MultiPoint`, `:105-117`. -/
def lineStringIo (cfg : Cfg) (cap : Nat → Bool) : Io (List Coord) :=
  mirrorIo (Prog.decVec cfg cap coordIo.dec) (Wr.elems cfg coordIo.wr)

/-- `MultiLineString`, `/repo/src/implementations/geo.rs:126-138`. -/
def multiLineStringIo (cfg : Cfg) (cap capL : Nat → Bool) : Io (List (List Coord)) :=
  mirrorIo (Prog.decVec cfg capL (lineStringIo cfg cap).dec) (Wr.elems cfg (lineStringIo cfg cap).wr)

/-- `Polygon`, `/repo/src/implementations/geo.rs:76-96`. -/
def polygonIo (cfg : Cfg) (cap capL : Nat → Bool) : Io Polygon :=
  mirrorIo
    (do
      let e ← (lineStringIo cfg cap).dec
      let is ← Prog.decVec cfg capL (lineStringIo cfg cap).dec
      pure (Polygon.new e is))
    (fun p => ((lineStringIo cfg cap).wr p.exterior).andThen <|
      (Wr.len cfg p.interiors.length).andThen (Wr.each (lineStringIo cfg cap).wr p.interiors))

/-- `MultiPolygon`, `/repo/src/implementations/geo.rs:147-159`. -/
def multiPolygonIo (cfg : Cfg) (cap capL capP : Nat → Bool) : Io (List Polygon) :=
  mirrorIo (Prog.decVec cfg capP (polygonIo cfg cap capL).dec) (Wr.elems cfg (polygonIo cfg cap capL).wr)

/-! ### rust_decimal, regex -/

/-- `Decimal`, `/repo/src/implementations/decimal.rs:9-23`; skip `skip.rs:801-817`. -/
def decimalIo (L : DecimalLib δ) : Io δ :=
  let dec : Prog δ := do
    let b ← Prog.readLE 128 16
    pure (L.de b)
  { dec := dec
    skip := Prog.advance 16
    check := dec.discard
    wr := fun v => .all (leBytes 16 (L.ser v).toNat) }

/-- `Vec<Decimal>` under `specialised-vectors`, `/repo/src/implementations/decimal.rs:37-89`; skip
`skip.rs:251-259`.  The length is written before `checked_mul` may fail. -/
def decimalsIo (cfg : Cfg) (cap : Nat → Bool) (L : DecimalLib δ) : Io (List δ) :=
  let dec : Prog (List δ) := do
    let n ← Prog.readLen cfg
    if n = 0 then pure []
    else do
      Prog.alloc (cap n)
      Prog.readN n (decimalIo L).dec
  { dec := dec
    skip := do
      let n ← Prog.readLen cfg
      if n * 16 < 2 ^ 64 then Prog.advance (n * 16) else Prog.fail .integerOverflow
    check := dec.discard
    wr := fun l => (Wr.len cfg l.length).andThen <|
      if l.length = 0 then .done
      else if l.length * 16 < 2 ^ 64 then .all (l.flatMap fun v => leBytes 16 (L.ser v).toNat)
      else .fail .integerOverflow }

/-- `Regex`, `/repo/src/implementations/regex.rs:8-21`; skip and check `skip.rs:843-860`. -/
def regexIo (cfg : Cfg) (cap : Nat → Bool) (L : RegexLib ρ) : Io ρ :=
  let dec : Prog ρ := convP (Prog.decString cfg cap) L.parse
  { dec := dec
    skip := Prog.skipBytes cfg
    check := dec.discard
    wr := fun r => .bytes cfg (strBytes (L.asStr r)) }

/-! ### roaring -/

/-- `serialize_into` and `deserialize_from` of `roaring`'s bitmaps on arbitrary readers and writers (library): some
calls to the reader, some to the writer: in `/repo/src/implementations/roaring.rs:10`, `:17`, `:31`, `:38`. -/
structure BitmapIo (β : Type) where
  de : Prog β
  ser : β → Wr

/-- `deserialize_revisioned` of the bitmaps, `/repo/src/implementations/roaring.rs:16-21`, `:39-44`: every error of
the library, those of the reader included, becomes `Error::Deserialize`. -/
def BitmapIo.dec (L : BitmapIo β) : Prog β := L.de.mapErr fun _ => .deserialize

/-- `serialize_revisioned` of the bitmaps, `/repo/src/implementations/roaring.rs:7-12`, `:30-35`: every error of the
library, those of the writer included, becomes `Error::Serialize`. -/
def BitmapIo.run (L : BitmapIo β) (v : β) (w : Sink) : Res Unit × Bytes × Sink :=
  match (L.ser v).run w with
  | (.err _, r) => (.err .serialize, r)
  | x => x

end Revision
