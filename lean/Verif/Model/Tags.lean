import Verif.Model.Utf8
import Verif.Model.Compact

/-!
# Model of field tags and keys (/repo/tags.go, /repo/struct.go:13, 151-169, 239-248, 260-282)
-/

namespace Jettison.Model

/-- `strings.Index(s, ",")`: `none` is -1 (/repo/tags.go:12). -/
def indexComma : Bytes → Option Nat
  | [] => none
  | c :: t => if c = c! ',' then some 0 else (indexComma t).map (· + 1)

/-- `strings.Split(s, ",")`: `strings.genSplit` looks for the next separator and
cuts there until there is none. `fuel` is an upper bound of the number of bytes (/repo/tags.go:13). -/
def splitComma : Nat → Bytes → List Bytes
  | 0, s => [s]
  | fuel + 1, s =>
    match indexComma s with
    | none => [s]
    | some m => s.take m :: splitComma fuel (s.drop (m + 1))

/-- `parseTag`, /repo/tags.go:11-16. -/
def parseTag (tag : Bytes) : Bytes × List Bytes :=
  match indexComma tag with
  | some idx => (tag.take idx, splitComma tag.length (tag.drop (idx + 1)))
  | none => (tag, [])

/-- `tagOptions.Contains`, /repo/tags.go:20-30. -/
def tagContains (opts : List Bytes) (name : Bytes) : Bool :=
  match opts with
  | [] => false
  | o :: t => if o = name then true else tagContains t name

/-- `unicode.IsLetter` and `unicode.IsDigit`: parameters of the model (/repo/struct.go:164). -/
structure UnicodeTab where
  isLetter : Nat → Bool
  isDigit : Nat → Bool

/-- `validChars`, /repo/struct.go:13. -/
def validChars : Bytes := b! "!#$%&()*+-./:<=>?@[]^_{|}~ "

/-- One iteration of the loop of /repo/struct.go:158-167 for the rune `c`:
`strings.ContainsRune(validChars, c)` is membership because `validChars` is ASCII. -/
def validRune (U : UnicodeTab) (c : Nat) : Bool :=
  (validChars.map UInt8.toNat).contains c || U.isLetter c || U.isDigit c

/-- The `range` loop of /repo/struct.go:158-167 over the runes of a string. `fuel`
is an upper bound of the number of bytes. -/
def validLoop (U : UnicodeTab) : Nat → Bytes → Bool
  | _, [] => true
  | 0, _ :: _ => true
  | fuel + 1, b :: t =>
    let (r, n) := decodeRune (b :: t)
    if validRune U r then validLoop U fuel ((b :: t).drop n) else false

/-- `isValidFieldName`, /repo/struct.go:154-169. -/
def isValidFieldName (U : UnicodeTab) (s : Bytes) : Bool :=
  if s.length = 0 then false else validLoop U s.length s

/-- The name and the `tagged` flag of a field, /repo/struct.go:243-248 and 260-266. -/
def fieldName (U : UnicodeTab) (tag goName : Bytes) : Bytes × Bool :=
  let name := (parseTag tag).1
  let name := if isValidFieldName U name then name else []
  let tagged := decide (name ≠ [])
  (if name = [] then goName else name, tagged)

/-- U+2028 or U+2029 starts here (E2 80 A8, E2 80 A9), as in `json.HTMLEscape` (/repo/struct.go:270). -/
def sepStart : Bytes → Option UInt8
  | a :: b :: x :: _ => if a = 0xE2 && b = 0x80 && (x &&& ~~~1) = 0xA8 then some x else none
  | _ => none

/-- The loop of `json.HTMLEscape` of the standard library, used at
/repo/struct.go:270. The first argument counts the bytes already accounted for
(the variable `start` is ahead of `i` after a separator). -/
def htmlEscapeFrom : Nat → Bytes → Bytes
  | _, [] => []
  | k + 1, _ :: t => htmlEscapeFrom k t
  | 0, c :: t =>
    if htmlChar c then b! "\\u00" ++ [hexDigit (c >>> 4), hexDigit (c &&& 0xF)] ++ htmlEscapeFrom 0 t
    else match sepStart (c :: t) with
    | some x => b! "\\u202" ++ [hexDigit (x &&& 0xF)] ++ htmlEscapeFrom 2 t
    | none => c :: htmlEscapeFrom 0 t

/-- `json.HTMLEscape` of the standard library. Called at /repo/struct.go:270. -/
def htmlEscape (s : Bytes) : Bytes := htmlEscapeFrom 0 s

/-- `keyNonEsc`, /repo/struct.go:281. -/
def keyNonEsc (name : Bytes) : Bytes := b! "\"" ++ name ++ b! "\":"

/-- `keyEscHTML`, /repo/struct.go:268-271, 282. -/
def keyEscHTML (name : Bytes) : Bytes := b! "\"" ++ htmlEscape name ++ b! "\":"

example : parseTag (b! "a,omitempty,string") = (b! "a", [b! "omitempty", b! "string"]) := by decide
example : keyEscHTML (b! "a<b") = b! "\"a\\u003cb\":" := by decide

end Jettison.Model
