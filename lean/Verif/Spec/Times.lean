import Verif.Spec.Calendar
import Verif.Model.Time

/-! # Specification: the RFC 3339 text of a time -/

namespace Jettison.Spec
open Jettison Jettison.Model

/-- The RFC 3339 text of a time: the date and clock reading of its zone, the
fraction (only with the nanosecond layout, without trailing zeros) and the zone. -/
def IsRFC3339 (t : GoTime) (nano : Bool) (text : Bytes) : Prop :=
  ∃ y mo d h mi s f, CivilTime (t.unix + t.offset) y mo d h mi s ∧ y ≤ 9999 ∧
    FracText f 9 (if nano then t.nsec else 0) ∧
    text = dateTimeText y mo d h mi s ++ f ++ zoneText t.offset

/-- The `w` last decimal digits of `n`, each written as the character that far below `'0'`. -/
def minusDigits : Nat → Nat → Bytes
  | 0, _ => []
  | w + 1, n => minusDigits w (n / 10) ++ [UInt8.ofNat (48 - n % 10)]

/-- The text written for a time of year 0 before December 31 (finding 5). With `h` hours, `mi` minutes
and `s` seconds to the next midnight, that of day `day` of the year, these are written with characters
below `'0'`, after the date of that day; days before March 1 are moved to June 1 of year 2 and the days
after it. At a midnight from March 1 on, this is the right text. -/
def IsStrayTime (t : GoTime) (nano : Bool) (text : Bytes) : Prop :=
  ∃ day y mo d h mi s f, t.unix + t.offset + epochSeconds + (h * 3600 + mi * 60 + s : Nat) = (day * 86400 : Nat) ∧ h < 24 ∧ mi < 60 ∧ s < 60 ∧
    ValidDate y mo d ∧ dayNumber y mo d = (if dayNumber 0 3 1 ≤ day then day else dayNumber 2 6 1 + day) ∧
    FracText f 9 (if nano then t.nsec else 0) ∧
    text = padDigits 4 y ++ b! "-" ++ padDigits 2 mo ++ b! "-" ++ padDigits 2 d ++ b! "T" ++ minusDigits 2 h ++ b! ":" ++ minusDigits 2 mi ++ b! ":" ++
      minusDigits 2 s ++ f ++ zoneText t.offset

/-- From 0000-12-31 on, on the clock of the time. -/
def FromDec31 (t : GoTime) : Prop := (dayNumber 0 12 31 * 86400 : Nat) ≤ t.unix + t.offset + epochSeconds

/-- What is written for a time in a layout of RFC 3339. -/
def TimeWritten (t : GoTime) (nano : Bool) (text : Bytes) : Prop :=
  (FromDec31 t ∧ IsRFC3339 t nano text) ∨ (¬ FromDec31 t ∧ IsStrayTime t nano text)

end Jettison.Spec
