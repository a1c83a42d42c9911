import Verif.Model.Time
/-!
# Adding a duration to a timestamp

Model of `internal/lang/funcs/datetime.go` L14-34 `TimestampFunc`, `MakeStaticTimestampFunc` and L36-62
`TimeAddFunc`.

External code, modelled as recalled (it is not on the machine): `time.Parse` as in `Model/Time.lean`, with the
location it gives to the time; `time.Time.Add`; `time.Time.Format` with the layout `RFC3339`, by `absDate` and
`appendInt` of the package `time`.  `time.ParseDuration` is the parameter `dur` (nanoseconds; its model is `Model/Duration`), the offset of the
location of the machine (`time.Local`) at a moment is the parameter `loc`.

The package `time` counts seconds from the year -292277022399; here they are counted from the year -399, as in
`Model/Time.lean`, which is the same day in the cycle of 400 years.
-/
namespace Verif.Funcs

/-- A `time.Location`. -/
inductive Zone where
  | utc
  | fixed (offset : Int)
  | loc
deriving DecidableEq

/-- A `time.Time`: nanoseconds and location. -/
structure GoTime where
  ns : Int
  zone : Zone
deriving DecidableEq

/-- The offset of a location at a moment, in seconds. -/
def Zone.offset (loc : Int → Int) (sec : Int) : Zone → Int
  | .utc => 0
  | .fixed off => off
  | .loc => loc sec

/-- The location in `parseRFC3339`: a time with an offset gets the location of the machine if that has the same
offset at that moment. -/
def zoneOf (loc : Int → Int) (sec : Int) (z : Bytes) : Zone :=
  if z = [90] then .utc
  else match parseZone z with
    | some off => if loc sec = off then .loc else .fixed off
    | none => .utc

/-- internal/lang/funcs/datetime.go L143-144, with the location. -/
def parseGoTime (loc : Int → Int) (slow : Bytes → Option GoTime) (s : Bytes) : Option GoTime :=
  match parseRFC3339 s with
  | some t => some ⟨t, zoneOf loc (t / 1000000000) (parseFrac (s.drop 19)).2⟩
  | none => slow s

/-- `time.absDate`: the year (counted from -399) and the day in it. -/
def absYear (d : Nat) : Nat × Nat :=
  let n := d / 146097
  let y := 400 * n
  let d := d - 146097 * n
  let n := d / 36524
  let n := n - n / 4
  let y := y + 100 * n
  let d := d - 36524 * n
  let n := d / 1461
  let y := y + 4 * n
  let d := d - 1461 * n
  let n := d / 365
  let n := n - n / 4
  (y + n, d - 365 * n)

/-- The second half of `time.absDate`: month and day of the month. -/
def absMonth (leap : Bool) (yday : Nat) : Nat × Nat :=
  if leap = true ∧ yday = 59 then (2, 29)
  else
    let day := if leap = true ∧ 59 < yday then yday - 1 else yday
    let month := day / 31
    let fin := daysBefore (month + 1)
    if fin ≤ day then (month + 2, day - fin + 1) else (month + 1, day - daysBefore month + 1)

/-- `isLeap` of a year counted from -399. -/
def isLeapAbs (y : Nat) : Bool := (y + 1) % 4 = 0 && ((y + 1) % 100 ≠ 0 || (y + 1) % 400 = 0)

/-- A digit in `appendInt`. -/
def utod (u : Nat) : UInt8 := (48 + u).toUInt8

/-- `time.appendInt` -/
def appendInt (x : Int) (width : Nat) : Bytes :=
  let u := x.natAbs
  let sign := if x < 0 then [45] else []
  if width = 2 ∧ u < 100 then sign ++ [utod (u / 10), utod (u % 10)]
  else if width = 4 ∧ u < 10000 then sign ++ [utod (u / 1000), utod (u / 100 % 10), utod (u / 10 % 10), utod (u % 10)]
  else sign ++ List.replicate (width - (b (toString u)).length) 48 ++ b (toString u)

/-- The zone in `appendFormatRFC3339`: `/` of Go rounds toward zero. -/
def formatZone (off : Int) : Bytes :=
  if off = 0 then [90]
  else
    let zone := off.tdiv 60
    (if zone < 0 then 45 else 43) :: (appendInt (zone.natAbs / 60 : Nat) 2 ++ 58 :: appendInt (zone.natAbs % 60 : Nat) 2)

/-- `appendFormatRFC3339` without nanoseconds, given the seconds shown on the clock (since the year -399) and the
offset. -/
def formatAbs (abs : Nat) (off : Int) : Bytes :=
  let (y, yday) := absYear (abs / 86400)
  let (month, day) := absMonth (isLeapAbs y) yday
  appendInt ((y : Int) - 399) 4 ++ 45 :: appendInt month 2 ++ 45 :: appendInt day 2 ++ 84 :: appendInt (abs % 86400 / 3600 : Nat) 2 ++
    58 :: appendInt (abs % 3600 / 60 : Nat) 2 ++ 58 :: appendInt (abs % 60 : Nat) 2 ++ formatZone off

/-- `t.Format(time.RFC3339)` -/
def formatTime (loc : Int → Int) (t : GoTime) : Bytes :=
  let sec := t.ns / 1000000000
  let off := t.zone.offset loc sec
  formatAbs (sec + off).toNat off

/-- internal/lang/funcs/datetime.go L50-61 -/
def timeAdd (loc : Int → Int) (slow : Bytes → Option GoTime) (dur : Bytes → Option Int) (ts d : Bytes) : Except Unit Bytes :=
  match parseGoTime loc slow ts with
  | none => .error ()                                                      -- L51-54
  | some t =>
    match dur d with
    | none => .error ()                                                    -- L55-58
    | some n => .ok (formatTime loc ⟨t.ns + n, t.zone⟩)                    -- L60

/-- internal/lang/funcs/datetime.go L26-34; with `now.UTC()` as `static` also L14-22. -/
def staticTimestamp (loc : Int → Int) (static : GoTime) : Bytes := formatTime loc static

end Verif.Funcs
