import Verif.Model.Escape

/-!
# Model of `appendCompactJSON` (/repo/encode.go:731-802)
-/

namespace Jettison.Model

/-- `c == '<' || c == '>' || c == '&'`, /repo/encode.go:744. -/
def htmlChar (c : UInt8) : Bool := c = c! '<' || c = c! '>' || c = c! '&'

/-- The condition of /repo/encode.go:756: U+2028 or U+2029 starts at `src[i]`. -/
def sepAt (src : Bytes) (i : Nat) : Bool :=
  src.getD i 0 = 0xE2 && i + 2 < src.length && src.getD (i + 1) 0 = 0x80 &&
    (src.getD (i + 2) 0 &&& ~~~1) = 0xA8

/-- The loop `for i, c := range src` of /repo/encode.go:741-797 with its variables
`at`, `inString`, `skipNext`, `dst`, and the final flush (798-801). `n` counts the
remaining iterations: `i + n = len(src)`. -/
def compactLoop (esc : Bool) (src : Bytes) : Nat → Nat → Nat → Bool → Bool → Bytes → Bytes
  | 0, _, at_, _, _, dst => if at_ < src.length then dst ++ src.drop at_ else dst
  | n + 1, i, at_, inString, skipNext, dst =>
    let c := src.getD i 0
    if esc && htmlChar c then
      let dst := flush dst src at_ i
      let dst := dst ++ b! "\\u00"
      let dst := dst ++ [hexDigit (c >>> 4), hexDigit (c &&& 0xF)]
      compactLoop esc src n (i + 1) (i + 1) inString skipNext dst
    else if sepAt src i then
      let dst := flush dst src at_ i
      let dst := dst ++ b! "\\u202"
      let dst := dst ++ [hexDigit (src.getD (i + 2) 0 &&& 0xF)]
      compactLoop esc src n (i + 1) (i + 3) inString skipNext dst
    else if !inString then
      if c = c! '"' then compactLoop esc src n (i + 1) at_ true skipNext dst
      else if c = c! ' ' || c = c! '\n' || c = c! '\r' || c = c! '\t' then
        compactLoop esc src n (i + 1) (i + 1) inString skipNext (flush dst src at_ i)
      else compactLoop esc src n (i + 1) at_ inString skipNext dst
    else if skipNext then compactLoop esc src n (i + 1) at_ inString false dst
    else if c = c! '\\' then compactLoop esc src n (i + 1) at_ inString true dst
    else if c = c! '"' then compactLoop esc src n (i + 1) at_ false skipNext dst
    else compactLoop esc src n (i + 1) at_ inString skipNext dst

/-- `appendCompactJSON(dst, src, escHTML)`, /repo/encode.go:734-802. It never
returns an error, which the model drops. -/
def appendCompactJSON (dst src : Bytes) (escHTML : Bool) : Bytes :=
  compactLoop escHTML src src.length 0 0 false false dst

example : appendCompactJSON (b! "x") (b! " { \"a <\\\" \u2028\" : [ 1 , 2 ] } ") true =
    b! "x{\"a \\u003c\\\" \\u2028\":[1,2]}" := by decide +kernel

end Jettison.Model
