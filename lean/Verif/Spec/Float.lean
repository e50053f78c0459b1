import Verif.Basic

/-!
# IEEE 754 binary interchange formats

`finiteUnits w bits` is the absolute value of a finite number in units of the
smallest subnormal, from the format's definition.
-/

namespace Jettison.Spec

/-- The two float widths. -/
inductive FWidth | f32 | f64
  deriving DecidableEq, Repr

/-- Mantissa width. -/
def FWidth.mant : FWidth → Nat | .f32 => 23 | .f64 => 52
/-- Exponent width. -/
def FWidth.exp : FWidth → Nat | .f32 => 8 | .f64 => 11

/-- Exponent field. -/
def expField (w : FWidth) (bits : Nat) : Nat := bits / 2 ^ w.mant % 2 ^ w.exp
/-- Mantissa field. -/
def mantField (w : FWidth) (bits : Nat) : Nat := bits % 2 ^ w.mant

/-- Not NaN and not an infinity. -/
def IsFinite (w : FWidth) (bits : Nat) : Prop := expField w bits ≠ 2 ^ w.exp - 1

instance (w : FWidth) (bits : Nat) : Decidable (IsFinite w bits) :=
  inferInstanceAs (Decidable (_ ≠ _))

/-- `|x|` in units of the least positive number of the format: 2^-149 or 2^-1074. -/
def finiteUnits (w : FWidth) (bits : Nat) : Nat :=
  if expField w bits = 0 then mantField w bits
  else (2 ^ w.mant + mantField w bits) * 2 ^ (expField w bits - 1)

/-- Number of least positive units in 1. -/
def FWidth.one : FWidth → Nat | .f32 => 2 ^ 149 | .f64 => 2 ^ 1074

end Jettison.Spec
