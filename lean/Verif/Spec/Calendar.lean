import Verif.Spec.JsonNumber

/-!
# Specification: proleptic Gregorian calendar and RFC 3339 texts

Everything is by counting: years have 365 or 366 days, months their lengths, and
days are numbered from 0000-01-01 = 0.
-/

namespace Jettison.Spec

/-- Gregorian leap years. -/
def IsLeap (y : Nat) : Prop := y % 4 = 0 ∧ (y % 100 ≠ 0 ∨ y % 400 = 0)

instance (y : Nat) : Decidable (IsLeap y) := inferInstanceAs (Decidable (_ ∧ _))

/-- Days from 0000-01-01 to January 1st of year `y`. -/
def daysBeforeYear : Nat → Nat
  | 0 => 0
  | y + 1 => daysBeforeYear y + if IsLeap y then 366 else 365

/-- Length of month `m` (1 is January) of year `y`. -/
def daysInMonth (y m : Nat) : Nat :=
  match m with
  | 1 | 3 | 5 | 7 | 8 | 10 | 12 => 31
  | 4 | 6 | 9 | 11 => 30
  | 2 => if IsLeap y then 29 else 28
  | _ => 0

/-- Days from January 1st to the first day of month `m`. -/
def daysBeforeMonth (y : Nat) : Nat → Nat
  | 0 | 1 => 0
  | m + 2 => daysBeforeMonth y (m + 1) + daysInMonth y (m + 1)

/-- A calendar date. -/
def ValidDate (y m d : Nat) : Prop := 1 ≤ m ∧ m ≤ 12 ∧ 1 ≤ d ∧ d ≤ daysInMonth y m

instance (y m d : Nat) : Decidable (ValidDate y m d) := inferInstanceAs (Decidable (_ ∧ _))

/-- Number of days from 0000-01-01 to the date. -/
def dayNumber (y m d : Nat) : Nat := daysBeforeYear y + daysBeforeMonth y m + (d - 1)

/-- Seconds from 0000-01-01T00:00:00 to the Unix epoch, 1970-01-01T00:00:00. -/
def epochSeconds : Nat := 719528 * 86400

example : dayNumber 1970 1 1 * 86400 = epochSeconds := by decide +kernel

/-- The civil time shown by a wall clock `local` seconds (possibly negative) away
from 1970-01-01T00:00:00 on the same clock. -/
def CivilTime (localSec : Int) (y mo d h mi s : Nat) : Prop :=
  ValidDate y mo d ∧ h < 24 ∧ mi < 60 ∧ s < 60 ∧
  localSec + epochSeconds = (dayNumber y mo d * 86400 + h * 3600 + mi * 60 + s : Nat)

/-- `w` decimal digits of `n`, zero padded. -/
def padDigits : Nat → Nat → Bytes
  | 0, _ => []
  | w + 1, n => padDigits w (n / 10) ++ [UInt8.ofNat (48 + n % 10)]

/-- The digits `ds` after a decimal point stand for `r / 10^p`. -/
def FracVal (ds : Bytes) (p r : Nat) : Prop :=
  (∀ c ∈ ds, IsDigit c) ∧ ds.length ≤ p ∧ digitsVal ds * 10 ^ (p - ds.length) = r

/-- A fraction text for `r / 10^p`: nothing when it is zero, otherwise a point and
digits without trailing zeros. -/
def FracText (f : Bytes) (p r : Nat) : Prop :=
  (f = [] ∧ r = 0) ∨ ∃ a d, f = c! '.' :: (a ++ [d]) ∧ d ≠ c! '0' ∧ FracVal (a ++ [d]) p r

/-- RFC 3339 `full-date "T" partial-time` without fraction. -/
def dateTimeText (y mo d h mi s : Nat) : Bytes :=
  padDigits 4 y ++ b! "-" ++ padDigits 2 mo ++ b! "-" ++ padDigits 2 d ++ b! "T" ++
  padDigits 2 h ++ b! ":" ++ padDigits 2 mi ++ b! ":" ++ padDigits 2 s

/-- RFC 3339 `time-offset` for an offset in seconds: `Z` for UTC, otherwise the
sign, hours and minutes of the offset truncated to minutes. -/
def zoneText (offset : Int) : Bytes :=
  if offset = 0 then b! "Z"
  else
    let z := offset.tdiv 60
    (if z < 0 then b! "-" else b! "+") ++ padDigits 2 (z.natAbs / 60) ++ b! ":" ++
      padDigits 2 (z.natAbs % 60)

example : dateTimeText 2021 3 4 5 6 7 = b! "2021-03-04T05:06:07" := by decide +kernel
example : zoneText (-12600) = b! "-03:30" := by decide +kernel

end Jettison.Spec
