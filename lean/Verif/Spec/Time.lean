import Verif.Go.Num
/-!
# The calendar, and how git prints a time

Independent of `time.Parse`: the date of a day is found by counting the days from the first of January 1970.
-/
namespace Ripsrc.Spec

/-- A date of the Gregorian calendar. -/
structure Civil where
  year : Nat
  month : Nat
  day : Nat
deriving DecidableEq, Repr

/-- Every fourth year is a leap year, but of the full centuries only every fourth. -/
def LeapYear (y : Nat) : Prop := (4 ∣ y ∧ ¬ 100 ∣ y) ∨ 400 ∣ y

instance (y : Nat) : Decidable (LeapYear y) := inferInstanceAs (Decidable (_ ∨ _))

/-- Thirty days have September, April, June and November. -/
def monthDays (y m : Nat) : Nat :=
  if m = 2 then (if LeapYear y then 29 else 28)
  else if m = 4 ∨ m = 6 ∨ m = 9 ∨ m = 11 then 30
  else 31

/-- The next day. -/
def Civil.next (c : Civil) : Civil :=
  if c.day < monthDays c.year c.month then { c with day := c.day + 1 }
  else if c.month < 12 then { c with month := c.month + 1, day := 1 }
  else { year := c.year + 1, month := 1, day := 1 }

/-- The date `n` days after the first of January 1970. -/
def civil : Nat → Civil
  | 0 => { year := 1970, month := 1, day := 1 }
  | n + 1 => (civil n).next

/-- A time zone as git stores it: a sign, hours and minutes. -/
structure Zone where
  neg : Bool
  hours : Nat
  minutes : Nat
deriving DecidableEq, Repr

/-- Its offset from UTC in seconds. -/
def Zone.offset (z : Zone) : Int := if z.neg then -((z.hours * 60 + z.minutes) * 60 : Nat) else ((z.hours * 60 + z.minutes) * 60 : Nat)

/-- Two digits. -/
def two (n : Nat) : Str := if n < 10 then 48 :: itoa n else itoa n

/-- The clock at second `s` of a day: `hh:mm:ss`. -/
def clock (s : Nat) : Str := two (s / 3600) ++ b!":" ++ two (s / 60 % 60) ++ b!":" ++ two (s % 60)

/-- The sign and the hours and minutes, with `sep` between. -/
def Zone.text (z : Zone) (sep : Str) : Str := (if z.neg then b!"-" else b!"+") ++ two z.hours ++ sep ++ two z.minutes

/-- The zones of a strict ISO date: new versions of git print `Z` for UTC. -/
inductive IsoZone : Zone → Str → Prop
  | num (z : Zone) : IsoZone z (z.text b!":")
  | utc (z : Zone) : z.hours = 0 → z.minutes = 0 → IsoZone z b!"Z"

/-- What git prints for `%aI` at the local time `w` (seconds since 1970 on the clock of the author), with the text `zone` for the zone; the year has no fixed width. -/
def isoDate (w : Nat) (zone : Str) : Str :=
  let c := civil (w / 86400)
  itoa c.year ++ b!"-" ++ two c.month ++ b!"-" ++ two c.day ++ b!"T" ++ clock (w % 86400) ++ zone

def weekdayNames : List Str := [b!"Sun", b!"Mon", b!"Tue", b!"Wed", b!"Thu", b!"Fri", b!"Sat"]
def monthNames : List Str := [b!"Jan", b!"Feb", b!"Mar", b!"Apr", b!"May", b!"Jun", b!"Jul", b!"Aug", b!"Sep", b!"Oct", b!"Nov", b!"Dec"]

/-- What git prints for `%(committerdate)` at the local time `w`. The first of January 1970 was a Thursday. -/
def gitDate (w : Nat) (z : Zone) : Str :=
  let c := civil (w / 86400)
  weekdayNames.getD ((w / 86400 + 4) % 7) [] ++ b!" " ++ monthNames.getD (c.month - 1) [] ++ b!" " ++ itoa c.day ++ b!" " ++ clock (w % 86400) ++ b!" " ++ itoa c.year ++ b!" " ++
    z.text []

end Ripsrc.Spec
