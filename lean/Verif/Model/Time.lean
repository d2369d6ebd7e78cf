import Verif.Go.Num
/-!
# Dates

`time.Parse` of the Go standard library (not in `/repo`) for the two layouts in use: `time.RFC3339` for the author date of a commit
(`/repo/ripsrc/commitmeta/commitmeta.go:250-256`) and `Mon Jan 2 15:04:05 2006 -0700` for the date of a branch (`/repo/ripsrc/gittime/gittime.go:6-9`). Modelled from the source of
package `time`; where its versions differ the difference is a parameter.
-/
namespace Ripsrc

/-- A `time.Time` as far as it is observable here: `Unix()`, `Nanosecond()` and the offset of its zone in seconds (the name of the zone, and whether it is `Local`, are not
modelled). -/
structure GoTime where
  unix : Int
  nsec : Nat := 0
  offset : Int
deriving DecidableEq, Repr

/-- The differences between versions of package `time`: whether the offset of a zone must consist of digits and be in range, whether a comma starts a fraction of a
second, and what the digits of a fraction mean (git prints no fractions). -/
structure TimePkg where
  strictZone : Bool
  comma : Bool
  frac : Str → Option Nat

/-- `isDigit(s, i)`. -/
def isDigitAt (s : Str) (i : Nat) : Bool := match s[i]? with
  | some b => (digitVal b).isSome
  | none => false

/-- `getnum(s, fixed)`: one or two digits, always two if `fixed`. -/
def getnum (s : Str) (fixed : Bool) : Option (Nat × Str) :=
  match s with
  | a :: rest => match digitVal a with
    | none => none
    | some x => match rest with
      | b :: rest2 => match digitVal b with
        | some y => some (x * 10 + y, rest2)
        | none => if fixed then none else some (x, rest)
      | [] => if fixed then none else some (x, [])
  | [] => none

/-- The years: `len(value) >= 4`, the first is a digit, `atoi(value[0:4])`. -/
def getYear (s : Str) : Option (Nat × Str) :=
  if s.length < 4 ∨ isDigitAt s 0 = false then none
  else match parseDigits 0 (s.take 4) with
    | none => none
    | some y => some (y, s.drop 4)

/-- A number in a range. -/
def ranged (lo hi : Nat) : Option (Nat × Str) → Option (Nat × Str)
  | some (n, s) => if lo ≤ n ∧ n ≤ hi then some (n, s) else none
  | none => none

/-- `skip(value, prefix)` for a prefix of one byte other than a space. -/
def skipByte (c : UInt8) : Str → Option Str
  | b :: s => if b = c then some s else none
  | [] => none

/-- `skip(value, " ")`: any number of spaces, at least one unless the text ends. -/
def skipSpace (s : Str) : Option Str :=
  match s with
  | [] => some []
  | b :: _ => if b = 32 then some (s.dropWhile (· = 32)) else none

/-- A letter as a small letter. -/
def lowerByte (b : UInt8) : UInt8 := if 65 ≤ b ∧ b ≤ 90 then b + 32 else b

/-- `lookup(tab, val)` for tables of names: the first name that the text starts with, ignoring case; its index. (`match` of package `time` ignores the case of letters.) -/
def lookupName (i : Nat) : List Str → Str → Option (Nat × Str)
  | [], _ => none
  | n :: ns, s => if n.length ≤ s.length ∧ (s.take n.length).map lowerByte = n.map lowerByte then some (i, s.drop n.length) else lookupName (i + 1) ns s

/-- `shortDayNames`. -/
def shortDayNames : List Str := [b!"Sun", b!"Mon", b!"Tue", b!"Wed", b!"Thu", b!"Fri", b!"Sat"]

/-- `shortMonthNames`. -/
def shortMonthNames : List Str := [b!"Jan", b!"Feb", b!"Mar", b!"Apr", b!"May", b!"Jun", b!"Jul", b!"Aug", b!"Sep", b!"Oct", b!"Nov", b!"Dec"]

/-- The digits at the beginning. -/
def leadingDigits (s : Str) : Str := s.takeWhile (fun b => (digitVal b).isSome)

/-- Seconds, with the fraction that is accepted although the layout has none. -/
def getSeconds (pkg : TimePkg) (s : Str) : Option (Nat × Nat × Str) :=
  match ranged 0 59 (getnum s true) with
  | none => none
  | some (sec, rest) => match rest with
    | c :: r =>
      if (c = 46 ∨ (pkg.comma = true ∧ c = 44)) ∧ isDigitAt r 0 = true then
        match pkg.frac (leadingDigits r) with
        | none => none
        | some ns => some (sec, ns, r.dropWhile (fun b => (digitVal b).isSome))
      else some (sec, 0, rest)
    | [] => some (sec, 0, [])

/-- Hours and minutes of an offset: two bytes each. -/
def zoneNum (pkg : TimePkg) (max : Nat) (s : Str) : Option Int :=
  if pkg.strictZone then
    match parseDigits 0 s with
    | some n => if n ≤ max then some n else none
    | none => none
  else atoi s

/-- The sign, and the offset in seconds. -/
def zoneOffset (pkg : TimePkg) (sign : UInt8) (hour min : Str) : Option Int :=
  match zoneNum pkg 24 hour, zoneNum pkg 60 min with
  | some h, some m =>
    if sign = 43 then some ((h * 60 + m) * 60)
    else if sign = 45 then some (-((h * 60 + m) * 60))
    else none
  | _, _ => none

/-- `Z07:00` (`stdISO8601ColonTZ`). -/
def getColonZone (pkg : TimePkg) (s : Str) : Option (Int × Str) :=
  match s with
  | 90 :: rest => some (0, rest)
  | sign :: h1 :: h2 :: c :: m1 :: m2 :: rest =>
    if c ≠ 58 then none
    else (zoneOffset pkg sign [h1, h2] [m1, m2]).map (fun o => (o, rest))
  | _ => none

/-- `-0700` (`stdNumTZ`). -/
def getNumZone (pkg : TimePkg) (s : Str) : Option (Int × Str) :=
  match s with
  | sign :: h1 :: h2 :: m1 :: m2 :: rest => (zoneOffset pkg sign [h1, h2] [m1, m2]).map (fun o => (o, rest))
  | _ => none

/-- `isLeap(year)`. -/
def isLeap (year : Nat) : Bool := decide (year % 4 = 0 ∧ (year % 100 ≠ 0 ∨ year % 400 = 0))

/-- `daysBefore[i]`: the days before the month with index `i` (January is 0) in a year that is not a leap year. -/
def daysBefore (i : Nat) : Nat := [0, 31, 59, 90, 120, 151, 181, 212, 243, 273, 304, 334, 365].getD i 0

/-- `daysIn(m, year)`. -/
def daysIn (m year : Nat) : Nat := if m = 2 ∧ isLeap year = true then 29 else daysBefore m - daysBefore (m - 1)

/-- The days of `Date` since the absolute epoch, the first of January of the year -292277022399. -/
def absDays (year month day : Nat) : Nat :=
  let y := year + 292277022399
  let n400 := y / 400
  let y := y - 400 * n400
  let n100 := y / 100
  let y := y - 100 * n100
  let n4 := y / 4
  let y := y - 4 * n4
  146097 * n400 + 36524 * n100 + 1461 * n4 + 365 * y + daysBefore (month - 1) + (if isLeap year = true ∧ 3 ≤ month then 1 else 0) + (day - 1)

/-- `absoluteToInternal + internalToUnix`, in seconds. -/
def absToUnix : Int := (-292277022400 / 400 * 146097 - (1969 * 365 + 1969 / 4 - 1969 / 100 + 1969 / 400)) * 86400

/-- `Date(year, month, day, hour, min, sec, nsec, UTC).Unix()`. -/
def dateUnix (year month day hour min sec : Nat) : Int := (absDays year month day * 86400 + (hour * 3600 + min * 60 + sec) : Nat) + absToUnix

/-- The end of `Parse`: no text is left, the day exists, and the time is `Date(..., UTC)` minus the offset. -/
def finishTime (year month day hour min sec nsec : Nat) (off : Int) (rest : Str) : Option GoTime :=
  if rest ≠ [] then none
  else if day < 1 ∨ daysIn month year < day then none
  else some { unix := dateUnix year month day hour min sec - off, nsec := nsec, offset := off }

/-- `time.Parse(time.RFC3339, s)`, layout `2006-01-02T15:04:05Z07:00`: `/repo/ripsrc/commitmeta/commitmeta.go:251`. -/
def parseRFC3339 (pkg : TimePkg) (s : Str) : Option GoTime := do
  let (year, s) ← getYear s
  let s ← skipByte 45 s
  let (month, s) ← ranged 1 12 (getnum s true)
  let s ← skipByte 45 s
  let (day, s) ← getnum s true
  let s ← skipByte 84 s
  let (hour, s) ← ranged 0 23 (getnum s false)
  let s ← skipByte 58 s
  let (min, s) ← ranged 0 59 (getnum s true)
  let s ← skipByte 58 s
  let (sec, nsec, s) ← getSeconds pkg s
  let (off, s) ← getColonZone pkg s
  finishTime year month day hour min sec nsec off s

/-- `gittime.Parse` (`/repo/ripsrc/gittime/gittime.go:6-9`): `time.Parse("Mon Jan 2 15:04:05 2006 -0700", s)`. -/
def parseGitTime (pkg : TimePkg) (s : Str) : Option GoTime := do
  let (_, s) ← lookupName 0 shortDayNames s
  let s ← skipSpace s
  let (month, s) ← lookupName 1 shortMonthNames s
  let s ← skipSpace s
  let (day, s) ← getnum s false
  let s ← skipSpace s
  let (hour, s) ← ranged 0 23 (getnum s false)
  let s ← skipByte 58 s
  let (min, s) ← ranged 0 59 (getnum s true)
  let s ← skipByte 58 s
  let (sec, nsec, s) ← getSeconds pkg s
  let s ← skipSpace s
  let (year, s) ← getYear s
  let s ← skipSpace s
  let (off, s) ← getNumZone pkg s
  finishTime year month day hour min sec nsec off s

end Ripsrc
