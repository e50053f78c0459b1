import Verif.Basic
import Verif.Model.Escape

/-!
# Model of /repo/number.go and of `encodeNumber`
-/

namespace Jettison.Model

/-- `'0' <= c && c <= '9'` (/repo/number.go:27). -/
def isDig (c : UInt8) : Bool := c! '0' ≤ c && c ≤ c! '9'

/-- The loop `for len(s) > 0 && '0' <= s[0] && s[0] <= '9' { s = s[1:] }`
(/repo/number.go:27-29, 34-36, 48-50). -/
def skipDigits : Bytes → Bytes
  | [] => []
  | c :: cs => if isDig c then skipDigits cs else c :: cs

/-- Optional minus sign, /repo/number.go:12-18. `none` is `return false`. -/
def stripMinus (s : Bytes) : Option Bytes :=
  match s with
  | c :: cs => if c = c! '-' then (if cs = [] then none else some cs) else some s
  | [] => some s

/-- The digits switch, /repo/number.go:19-30. The empty string cannot reach this
point in the code (`s[0]` would panic); it is mapped to `none`. -/
def stripInt (s : Bytes) : Option Bytes :=
  match s with
  | [] => none
  | c :: cs =>
    if c = c! '0' then some cs
    else if c! '1' ≤ c && c ≤ c! '9' then some (skipDigits cs)
    else none

/-- Fraction, /repo/number.go:31-37. -/
def stripFrac (s : Bytes) : Bytes :=
  match s with
  | c0 :: c1 :: rest => if c0 = c! '.' && isDig c1 then skipDigits rest else s
  | _ => s

/-- Exponent, /repo/number.go:38-51. -/
def stripExp (s : Bytes) : Option Bytes :=
  match s with
  | c0 :: c1 :: rest =>
    if c0 = c! 'e' || c0 = c! 'E' then
      if c1 = c! '+' || c1 = c! '-' then
        if rest = [] then none else some (skipDigits rest)
      else some (skipDigits (c1 :: rest))
    else some s
  | _ => some s

/-- `isValidNumber`, /repo/number.go:5-54. -/
def isValidNumber (s : Bytes) : Bool :=
  if s = [] then false else
  match stripMinus s with
  | none => false
  | some s =>
    match stripInt s with
    | none => false
    | some s =>
      match stripExp (stripFrac s) with
      | none => false
      | some s => s = []

/-- `encodeNumber`, /repo/encode.go:76-92, with the `noNumberValidation` flag.
`.error ()` is the "invalid number literal" error; the code returns `dst`
unchanged beside it. -/
def encodeNumber (num dst : Bytes) (noNumberValidation : Bool) : Except Unit Bytes :=
  let num := if num = [] then b! "0" else num
  if !noNumberValidation && !isValidNumber num then .error ()
  else .ok (dst ++ num)

end Jettison.Model
