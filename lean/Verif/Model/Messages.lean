import Verif.Model.Api

/-!
# Model of the error messages (/repo/json.go:29-106) and of `DurationFmt.String`

`fmt.Sprintf` with `%s` copies its arguments: the name of a type as `reflect.Type.String`
gives it, and the message of another error.
-/

namespace Jettison.Model
open Jettison.Spec (FWidth)

/-- What the messages are made of besides fixed text. `typ`: `reflect.Type.String`
(/repo/json.go:47, 67 and /repo/encode.go:602). `quote`: the verb `%q` (/repo/encode.go:89).
`user`: `Error()` of an error that a method returned (/repo/json.go:47). Parameters. -/
structure Texts where
  typ : TId → Bytes
  quote : Bytes → Bytes
  user : Nat → Bytes

/-- The constants `marshalerJSON` etc., /repo/json.go:29-34, with their uses at
/repo/encode.go:684, 694, 702, 714 and 722. -/
def funcName : MethKind → Bytes
  | .json => b! "MarshalJSON"
  | .text => b! "MarshalText"
  | .appendCtx => b! "AppendJSONContext"
  | .append => b! "AppendJSON"

/-- `strconv.FormatFloat(f, 'g', -1, bs)` of a number that is not finite, as in
/repo/encode.go:159. strconv tests the mantissa, then the sign; the function is only called on
such numbers. -/
def formatNonFinite (w : FWidth) (bits : Nat) : Bytes :=
  if bits % 2 ^ w.mant ≠ 0 then b! "NaN"
  else if bits / 2 ^ (w.mant + w.exp) % 2 ≠ 0 then b! "-Inf"
  else b! "+Inf"

/-- `(*SyntaxError).Error`, /repo/json.go:94, with the message of /repo/encode.go:713; otherwise
`Error` of the error that the method returned. -/
def UErr.text (N : Texts) : UErr → Bytes
  | .user id => N.user id
  | .syntax => b! "json: invalid value"

/-- `Error` of the errors of an encoding: /repo/json.go:45-48, 66-68, 79-81, and the messages of
/repo/encode.go:89, 113, 593 and 602. -/
def Err.text (N : Texts) : Err → Bytes
  | .marshaler t m e => b! "json: error calling " ++ funcName m ++ b! " for type " ++ N.typ t ++ b! ": " ++ e.text N
  | .unsupportedType t => b! "json: unsupported type: " ++ N.typ t
  | .unsupportedValue w bits => b! "json: unsupported value: " ++ formatNonFinite w bits
  | .numberLiteral s => b! "json: invalid number literal " ++ N.quote s
  | .timeRange => b! "time: year outside of range [0,9999]"
  | .syncMapNilKey => b! "unsupported nil key in sync.Map"
  | .syncMapKey t => b! "unsupported key of type " ++ N.typ t ++ b! " in sync.Map"

/-- The messages of `validate`, /repo/options.go:69-74. -/
def OptErr.text : OptErr → Bytes
  | .nilContext => b! "nil context"
  | .emptyLayout => b! "empty time layout"
  | .unknownDuration => b! "unknown duration format"

/-- `Error` of the error of a call, /repo/json.go:44-106. -/
def ApiErr.text (N : Texts) : ApiErr → Bytes
  | .invalidOption e => b! "json: invalid option: " ++ e.text
  | .encoding e => e.text N

/-- `errors.Unwrap` of the error of a call: only `MarshalerError` has an `Unwrap` method,
/repo/json.go:54-56; those of `fmt.Errorf` without `%w` and of `errors.New` have none. -/
def ApiErr.unwrap : ApiErr → Option UErr
  | .encoding (.marshaler _ _ e) => some e
  | _ => none

/-- `durationFmtStr`, /repo/time.go:36. -/
def durationFmtStr : List Bytes := [b! "str", b! "min", b! "s", b! "ms", b! "μs", b! "nanosecond"]

/-- `DurationFmt.String`, /repo/time.go:23-28; `none` is an index out of range. -/
def durationFmtString (f : Int) : Option Bytes :=
  if !durationFmtValid f then some (b! "unknown") else durationFmtStr[f.toNat]?

end Jettison.Model
