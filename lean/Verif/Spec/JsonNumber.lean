import Verif.Basic

/-!
# RFC 8259 number grammar (section 6) and the decimal value of a literal

Written from the RFC, independently of the code.
-/

namespace Jettison.Spec

/-- DIGIT -/
def IsDigit (c : UInt8) : Prop := c! '0' ≤ c ∧ c ≤ c! '9'

instance (c : UInt8) : Decidable (IsDigit c) := inferInstanceAs (Decidable (_ ∧ _))

/-- digit1-9 -/
def IsDigit19 (c : UInt8) : Prop := c! '1' ≤ c ∧ c ≤ c! '9'

instance (c : UInt8) : Decidable (IsDigit19 c) := inferInstanceAs (Decidable (_ ∧ _))

/-- `1*DIGIT` -/
def Digits1 (s : Bytes) : Prop := s ≠ [] ∧ ∀ c ∈ s, IsDigit c

/-- `int = zero / ( digit1-9 *DIGIT )` -/
def IntPart (s : Bytes) : Prop :=
  s = b! "0" ∨ ∃ d ds, s = d :: ds ∧ IsDigit19 d ∧ ∀ c ∈ ds, IsDigit c

/-- `[ frac ]`, `frac = decimal-point 1*DIGIT` -/
def FracPart (s : Bytes) : Prop := s = [] ∨ ∃ ds, s = c! '.' :: ds ∧ Digits1 ds

/-- `[ exp ]`, `exp = e [ minus / plus ] 1*DIGIT` -/
def ExpPart (s : Bytes) : Prop :=
  s = [] ∨ ∃ e sg ds, s = e :: (sg ++ ds) ∧ (e = c! 'e' ∨ e = c! 'E') ∧
    (sg = [] ∨ sg = b! "+" ∨ sg = b! "-") ∧ Digits1 ds

/-- `number = [ minus ] int [ frac ] [ exp ]` -/
def IsNumber (s : Bytes) : Prop :=
  ∃ sg i f e, s = sg ++ (i ++ (f ++ e)) ∧ (sg = [] ∨ sg = b! "-") ∧
    IntPart i ∧ FracPart f ∧ ExpPart e

/-- The natural number spelled by a digit sequence. -/
def digitsVal (s : Bytes) : Nat := s.foldl (fun n c => 10 * n + (c.toNat - 48)) 0

/-- A literal without fraction and exponent and the integer it denotes: `0`, or
digits without leading zero, with a minus sign exactly for negative numbers. -/
inductive IntLiteral : Bytes → Int → Prop
  | nonneg (s : Bytes) : IntPart s → IntLiteral s (digitsVal s : Int)
  | neg (s : Bytes) : IntPart s → digitsVal s ≠ 0 → IntLiteral (c! '-' :: s) (-(digitsVal s : Int))

end Jettison.Spec

namespace Jettison.Spec

/-- The integer spelled by an optional sign and digits. -/
def signedVal (sg ds : Bytes) : Int :=
  if sg = b! "-" then -(digitsVal ds : Int) else digitsVal ds

/-- The digits of a fraction part. -/
def fracDigits (f : Bytes) : Bytes := f.tail

/-- `NumDenotes s m e`: the RFC 8259 literal `s` denotes `m * 10^e`, where `m` is
the integer spelled by all mantissa digits. (A literal `-0` has `m = 0`.) -/
def NumDenotes (s : Bytes) (m e : Int) : Prop :=
  ∃ sg i f, (sg = [] ∨ sg = b! "-") ∧ IntPart i ∧ FracPart f ∧
    m = signedVal sg (i ++ fracDigits f) ∧
    ((s = sg ++ (i ++ f) ∧ e = -((fracDigits f).length : Int)) ∨
     ∃ c esg ds, (c = c! 'e' ∨ c = c! 'E') ∧ (esg = [] ∨ esg = b! "+" ∨ esg = b! "-") ∧
       Digits1 ds ∧ s = sg ++ (i ++ (f ++ (c :: (esg ++ ds)))) ∧
       e = signedVal esg ds - ((fracDigits f).length : Int))

end Jettison.Spec
