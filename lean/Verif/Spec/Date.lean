/-!
# Calendar dates and the MS-DOS date format
-/

namespace Lha.Spec

/-- A calendar date with a time of day. -/
structure Civil where
  year : Nat
  month : Nat
  day : Nat
  hour : Nat
  minute : Nat
  second : Nat
  deriving DecidableEq

def leap (y : Nat) : Bool := y % 4 = 0 && (y % 100 ≠ 0 || y % 400 = 0)

/-- Days in the month `m` of the year `y`. -/
def monthDays (y m : Nat) : Nat :=
  if m = 2 then (if leap y then 29 else 28) else if m = 4 ∨ m = 6 ∨ m = 9 ∨ m = 11 then 30 else 31

/-- A date of the Gregorian calendar that the MS-DOS format can hold. -/
structure Civil.Dos (c : Civil) : Prop where
  year : 1980 ≤ c.year ∧ c.year ≤ 2107
  month : 1 ≤ c.month ∧ c.month ≤ 12
  day : 1 ≤ c.day ∧ c.day ≤ monthDays c.year c.month
  hour : c.hour < 24
  minute : c.minute < 60
  second : c.second < 60

/-- The fields of an MS-DOS date and time, from the lowest bit: 5 bits of seconds / 2, 6 of minutes, 5 of hours, 5 of days, 4 of months, 7 of
years since 1980. -/
def dosDate (v : Nat) : Civil :=
  { second := v % 2 ^ 5 * 2
    minute := v / 2 ^ 5 % 2 ^ 6
    hour := v / 2 ^ 11 % 2 ^ 5
    day := v / 2 ^ 16 % 2 ^ 5
    month := v / 2 ^ 21 % 2 ^ 4
    year := 1980 + v / 2 ^ 25 % 2 ^ 7 }

/-- Days from the first of January 1970 to the first of January of the year `1970 + n`. -/
def yearDays : Nat → Nat
  | 0 => 0
  | n + 1 => yearDays n + (if leap (1970 + n) then 366 else 365)

/-- Days from the first of January to the first of the month `1 + n`. -/
def daysBefore (y : Nat) : Nat → Nat
  | 0 => 0
  | n + 1 => daysBefore y n + monthDays y (n + 1)

/-- Seconds since 1970, both in the same time zone. -/
def Civil.unix (c : Civil) : Nat :=
  ((yearDays (c.year - 1970) + daysBefore c.year (c.month - 1) + (c.day - 1)) * 24 + c.hour) * 3600 + c.minute * 60 + c.second

end Lha.Spec
