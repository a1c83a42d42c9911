import Verif.Model.Funcs
/-!
# Comparison of timestamps

Model of `internal/lang/funcs/datetime.go` L65-98 `TimeCmpFunc` and L143-202 `parseTimestamp` (the texts of
its errors are not represented).

External code, modelled as recalled (it is not on the machine): `time.Parse` with the layout `RFC3339`, which
first tries `parseRFC3339` and, when that fails, the general parser, which accepts some more texts (an hour of
one digit, a comma before the fraction); the general parser is the parameter `slow`.  `time.Date` by its count
of days.  A time is its number of nanoseconds since a fixed moment.
-/
namespace Verif.Funcs

/-- The loop of `parseUint` in `parseRFC3339`. -/
def digitsLoop (x : Nat) : Bytes → Option Nat
  | [] => some x
  | c :: s => if c < 48 ∨ 57 < c then none else digitsLoop (x * 10 + (c.toNat - 48)) s

/-- `parseUint`: a number between `lo` and `hi`. -/
def parseUint (s : Bytes) (lo hi : Nat) : Option Nat :=
  match digitsLoop 0 s with
  | none => none
  | some x => if x < lo ∨ hi < x then none else some x

/-- Go `s[i:j]`, where it is in range. -/
def slice (s : Bytes) (i j : Nat) : Bytes := (s.drop i).take (j - i)

/-- `time.isLeap` -/
def isLeap (year : Nat) : Bool := year % 4 = 0 && (year % 100 ≠ 0 || year % 400 = 0)

/-- `time.daysBefore`: the days of a common year before month `m`, counted from 0. -/
def daysBefore (m : Nat) : Nat := [0, 31, 59, 90, 120, 151, 181, 212, 243, 273, 304, 334, 365].getD m 0

/-- `time.daysIn` -/
def daysIn (m year : Nat) : Nat :=
  if m = 2 ∧ isLeap year = true then 29 else daysBefore m - daysBefore (m - 1)

/-- `time.daysSinceEpoch`, from the year -399: whole 400, 100, 4 and single years. -/
def daysSinceEpoch (year : Nat) : Nat :=
  let y := year + 399
  let d := 146097 * (y / 400)
  let y := y % 400
  let d := d + 36524 * (y / 100)
  let y := y % 100
  let d := d + 1461 * (y / 4)
  d + 365 * (y % 4)

/-- `time.Date` in UTC, in seconds. -/
def dateSec (year month day hour min sec : Nat) : Int :=
  let d := daysSinceEpoch year + daysBefore (month - 1)
  let d := if isLeap year = true ∧ 3 ≤ month then d + 1 else d
  let d := d + (day - 1)
  ((d * 86400 + hour * 3600 + min * 60 + sec : Nat) : Int)

/-- The digits at the start of a text, and the rest. -/
def spanDigits : Bytes → Bytes × Bytes
  | [] => ([], [])
  | c :: s => if c < 48 ∨ 57 < c then ([], c :: s) else (c :: (spanDigits s).1, (spanDigits s).2)

/-- `parseNanoseconds`: only nine digits are looked at. -/
def parseNano (ds : Bytes) : Nat := ((digitsLoop 0 (ds.take 9)).getD 0) * 10 ^ (9 - (ds.take 9).length)

/-- The fraction in `parseRFC3339`: nanoseconds and the rest. -/
def parseFrac (s : Bytes) : Nat × Bytes :=
  match s with
  | 46 :: r => if (spanDigits r).1 = [] then (0, s) else (parseNano (spanDigits r).1, (spanDigits r).2)
  | _ => (0, s)

/-- The zone in `parseRFC3339`: the offset in seconds. -/
def parseZone (s : Bytes) : Option Int :=
  if s = [90] then some 0
  else if s.length ≠ 6 then none
  else match parseUint (slice s 1 3) 0 23, parseUint (slice s 4 6) 0 59 with
    | some hr, some mm =>
      if (s[0]? = some 45 ∨ s[0]? = some 43) ∧ s[3]? = some 58 then
        some (if s[0]? = some 45 then -((hr * 60 + mm) * 60) else (hr * 60 + mm) * 60)
      else none
    | _, _ => none

/-- `parseRFC3339`: the time in nanoseconds. -/
def parseRFC3339 (s : Bytes) : Option Int :=
  if s.length < 19 then none
  else do
    let year ← parseUint (slice s 0 4) 0 9999
    let month ← parseUint (slice s 5 7) 1 12
    let day ← parseUint (slice s 8 10) 1 (daysIn month year)
    let hour ← parseUint (slice s 11 13) 0 23
    let min ← parseUint (slice s 14 16) 0 59
    let sec ← parseUint (slice s 17 19) 0 59
    if s[4]? = some 45 ∧ s[7]? = some 45 ∧ s[10]? = some 84 ∧ s[13]? = some 58 ∧ s[16]? = some 58 then
      let offset ← parseZone (parseFrac (s.drop 19)).2
      some ((dateSec year month day hour min sec - offset) * 1000000000 + (parseFrac (s.drop 19)).1)
    else none

/-- internal/lang/funcs/datetime.go L143-144 -/
def parseTimestamp (slow : Bytes → Option Int) (s : Bytes) : Option Int :=
  match parseRFC3339 s with
  | some t => some t
  | none => slow s

/-- internal/lang/funcs/datetime.go L78-97 -/
def timeCmp (slow : Bytes → Option Int) (x y : Bytes) : Except Unit Int :=
  match parseTimestamp slow x with
  | none => .error ()                          -- L80-82
  | some tsA =>
    match parseTimestamp slow y with
    | none => .error ()                        -- L84-86
    | some tsB =>
      if tsA = tsB then .ok 0                  -- L89-90
      else if tsA < tsB then .ok (-1)          -- L91-92
      else .ok 1                               -- L93-95

end Verif.Funcs
