import Verif.Basic
import Verif.Spec.Float

/-!
# Model of `appendFloat` and the float encoders (/repo/encode.go:53-63, 155-183)

A float is its IEEE bit pattern. Comparison of the absolute value of finite
floats with a positive constant is comparison of bit patterns, as on the
hardware. `encodeFloat32` widens to float64 and narrows again for the
comparison and in `strconv`; the conversion is exact, so the model works on the
32 bit pattern directly.
-/

namespace Jettison.Model
open Jettison.Spec (FWidth)

/-- `strconv.AppendFloat(nil, f, fmt, -1, bs)`; the Boolean is `fmt == 'e'`.
A parameter: its contract is `Props.FormatContract` (/repo/encode.go:174). -/
abbrev FloatFmt := FWidth → Nat → Bool → Bytes

/-- The constant `1e-6` as a float of the width (/repo/encode.go:169-170). -/
def bits1em6 : FWidth → Nat | .f32 => 0x358637bd | .f64 => 0x3eb0c6f7a0b5ed8d
/-- The constant `1e21` as a float of the width (/repo/encode.go:169-170). -/
def bits1e21 : FWidth → Nat | .f32 => 0x6258d727 | .f64 => 0x444b1ae4d6e2ef50

/-- `math.Abs`: clear the sign bit (/repo/encode.go:166). -/
def fabs (w : FWidth) (bits : Nat) : Nat := bits % 2 ^ (w.mant + w.exp)

/-- `math.IsInf(f, 0) || math.IsNaN(f)`, /repo/encode.go:156: exponent all ones. -/
def isNaNOrInf (w : FWidth) (bits : Nat) : Bool := fabs w bits ≥ (2 ^ w.exp - 1) * 2 ^ w.mant

/-- Choice of the exponent format, /repo/encode.go:166-173. -/
def useExp (w : FWidth) (bits : Nat) : Bool :=
  let abs := fabs w bits
  abs != 0 && (abs < bits1em6 w || abs ≥ bits1e21 w)

/-- The clean-up of `e-09` to `e-9`, /repo/encode.go:176-180, on the whole buffer. -/
def cleanExp (dst : Bytes) : Bytes :=
  let n := dst.length
  if n ≥ 4 && dst[n-4]? == some (c! 'e') && dst[n-3]? == some (c! '-') && dst[n-2]? == some (c! '0')
  then dst.take (n - 2) ++ dst.drop (n - 1)
  else dst

/-- `appendFloat`, /repo/encode.go:155-183. `.error ()` is `UnsupportedValueError`,
returned with the untouched `dst`. -/
def appendFloat (fmt : FloatFmt) (dst : Bytes) (w : FWidth) (bits : Nat) : Except Unit Bytes :=
  if isNaNOrInf w bits then .error ()
  else
    let e := useExp w bits
    let dst := dst ++ fmt w bits e
    .ok (if e then cleanExp dst else dst)

end Jettison.Model
