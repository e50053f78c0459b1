import Verif.Model.Utf8

/-!
# Model of string escaping (/repo/encode.go:31-51, 804-895)
-/

namespace Jettison.Model

/-- The option flags that `appendEscapedBytes` consults
(/repo/options.go:28-40: `noStringEscaping`, `noHTMLEscaping`, `noUTF8Coercion`). -/
structure EscOpts where
  noStringEscaping : Bool := false
  noHTMLEscaping : Bool := false
  noUTF8Coercion : Bool := false
  deriving DecidableEq, Repr

/-- `hex[i]` (/repo/encode.go:21): `const hex = "0123456789abcdef"`. -/
def hexDigit (n : UInt8) : UInt8 := if n < 10 then n + 48 else n + 87

/-- The switch of /repo/encode.go:836-849. -/
def escapeAscii (c : UInt8) : Bytes :=
  if c = c! '"' || c = c! '\\' then [c! '\\', c]
  else if c = c! '\n' then [c! '\\', c! 'n']
  else if c = c! '\r' then [c! '\\', c! 'r']
  else if c = c! '\t' then [c! '\\', c! 't']
  else b! "\\u00" ++ [hexDigit (c >>> 4)] ++ [hexDigit (c &&& 0xF)]

/-- The condition of /repo/encode.go:820. -/
def plainAscii (o : EscOpts) (c : UInt8) : Bool :=
  c ≥ 32 && c ≠ c! '\\' && c ≠ c! '"' &&
    (o.noHTMLEscaping || (c ≠ c! '<' && c ≠ c! '>' && c ≠ c! '&'))

/-- `if at < i { dst = append(dst, b[at:i]...) }` (/repo/encode.go:828-830, 860-862, 877-879). -/
def flush (dst b : Bytes) (at_ i : Nat) : Bytes :=
  if at_ < i then dst ++ slice b at_ i else dst

/-- The loop of /repo/encode.go:815-893 with its variables `i`, `at`, `dst`.
`fuel` only serves termination: every iteration advances `i`, and the caller
passes `len(b)` (`escLoop_fuel` below shows more changes nothing). -/
def escLoop (o : EscOpts) (b : Bytes) : Nat → Nat → Nat → Bytes → Bytes
  | 0, _, at_, dst => if at_ < b.length then dst ++ b.drop at_ else dst
  | fuel + 1, i, at_, dst =>
    if i < b.length then
      let c := b.getD i 0
      if c < 0x80 then
        if plainAscii o c then escLoop o b fuel (i + 1) at_ dst
        else
          let dst := flush dst b at_ i
          let dst := dst ++ escapeAscii c
          escLoop o b fuel (i + 1) (i + 1) dst
      else
        let (r, size) := decodeRune (b.drop i)
        if !o.noUTF8Coercion then
          if r = runeError ∧ size = 1 then
            let dst := flush dst b at_ i
            let dst := dst ++ b! "\\ufffd"
            escLoop o b fuel (i + size) (i + size) dst
          else if r = 0x2028 ∨ r = 0x2029 then
            let dst := flush dst b at_ i
            let dst := dst ++ b! "\\u202"
            let dst := dst ++ [hexDigit (UInt8.ofNat (r &&& 0xF))]
            escLoop o b fuel (i + size) (i + size) dst
          else escLoop o b fuel (i + size) at_ dst
        else escLoop o b fuel (i + size) at_ dst
    else if at_ < b.length then dst ++ b.drop at_ else dst

/-- `appendEscapedBytes(dst, b, opts)`, /repo/encode.go:804-895. -/
def appendEscapedBytes (dst b : Bytes) (o : EscOpts) : Bytes :=
  if o.noStringEscaping then dst ++ b
  else escLoop o b b.length 0 0 dst

/-- `encodeString`, /repo/encode.go:36-42; `b` is the content of the Go string
(`sp2b`, /repo/unsafe.go:60-67). -/
def encodeString (b dst : Bytes) (o : EscOpts) : Bytes :=
  let dst := dst ++ b! "\""
  let dst := appendEscapedBytes dst b o
  dst ++ b! "\""

/-- `encodeQuotedString`, /repo/encode.go:45-51. -/
def encodeQuotedString (b dst : Bytes) (o : EscOpts) : Bytes :=
  let dst := dst ++ b! "\"\\\""
  let dst := appendEscapedBytes dst b o
  dst ++ b! "\\\"\""

example : encodeString (b! "a<é\n\"\u2028") (b! "x") {} =
    b! "x\"a\\u003cé\\n\\\"\\u2028\"" := by decide +kernel

end Jettison.Model
