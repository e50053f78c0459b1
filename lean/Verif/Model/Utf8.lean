import Verif.Basic

/-!
# Model of `unicode/utf8.DecodeRune`

Standard library function called at /repo/encode.go:854. Modelled after the Go
source of `unicode/utf8` (tables `first` and `acceptRanges`).
-/

namespace Jettison.Model

/-- `utf8.RuneError`, U+FFFD (/repo/encode.go:859). -/
def runeError : Nat := 0xFFFD

/-- Continuation byte test `locb <= b && b <= hicb` (0x80..0xBF). Called at /repo/encode.go:854. -/
def isCont (b : UInt8) : Bool := 0x80 ≤ b && b ≤ 0xBF

/-- The `first` table joined with `acceptRanges` (Go's unicode/utf8/utf8.go):
for a lead byte of a multi-byte sequence, its size and the accepted range of the
second byte; `none` for the `xx` entries (invalid lead byte). -/
def leadInfo (b : UInt8) : Option (Nat × UInt8 × UInt8) :=
  if b < 0xC2 then none
  else if b ≤ 0xDF then some (2, 0x80, 0xBF)
  else if b = 0xE0 then some (3, 0xA0, 0xBF)
  else if b ≤ 0xEC then some (3, 0x80, 0xBF)
  else if b = 0xED then some (3, 0x80, 0x9F)
  else if b ≤ 0xEF then some (3, 0x80, 0xBF)
  else if b = 0xF0 then some (4, 0x90, 0xBF)
  else if b ≤ 0xF3 then some (4, 0x80, 0xBF)
  else if b = 0xF4 then some (4, 0x80, 0x8F)
  else none

/-- `utf8.DecodeRune(p)`: the rune and the number of bytes consumed. Called at /repo/encode.go:854. -/
def decodeRune (p : Bytes) : Nat × Nat :=
  match p with
  | [] => (runeError, 0)
  | p0 :: p' =>
    if p0 < 0x80 then (p0.toNat, 1)
    else match leadInfo p0 with
    | none => (runeError, 1)
    | some (sz, lo, hi) =>
      match sz, p' with
      | 2, b1 :: _ =>
        if b1 < lo || hi < b1 then (runeError, 1)
        else ((p0.toNat &&& 0x1F) <<< 6 ||| (b1.toNat &&& 0x3F), 2)
      | 3, b1 :: b2 :: _ =>
        if b1 < lo || hi < b1 then (runeError, 1)
        else if !isCont b2 then (runeError, 1)
        else ((p0.toNat &&& 0x0F) <<< 12 ||| (b1.toNat &&& 0x3F) <<< 6 ||| (b2.toNat &&& 0x3F), 3)
      | 4, b1 :: b2 :: b3 :: _ =>
        if b1 < lo || hi < b1 then (runeError, 1)
        else if !isCont b2 then (runeError, 1)
        else if !isCont b3 then (runeError, 1)
        else ((p0.toNat &&& 0x07) <<< 18 ||| (b1.toNat &&& 0x3F) <<< 12 |||
          (b2.toNat &&& 0x3F) <<< 6 ||| (b3.toNat &&& 0x3F), 4)
      | _, _ => (runeError, 1)   -- n < sz

end Jettison.Model
