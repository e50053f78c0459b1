import Verif.Basic
import Verif.Model.Integer
import Verif.Model.Duration

/-!
# Model of the time encoders (/repo/time.go:153-253, /repo/encode.go:105-129)
-/

namespace Jettison.Model

/-- What the code reads of a `time.Time`: `t.Unix()`, `t.Nanosecond()` and the
offset of `t.Zone()` in seconds. Unbounded integers stand for `int64`: under the
year guard of `encodeTime` no sum overflows (/repo/encode.go:108-116, /repo/time.go:181-182, 206). -/
structure GoTime where
  unix : Int
  nsec : Nat
  offset : Int
  deriving DecidableEq, Repr

/-- `t.Year()`: the algorithm of `time.Time.absDate` in the Go standard library
(400, 100, 4 and 1 year cycles), counting days from 0001-01-01. Called at /repo/encode.go:109. -/
def goYear (t : GoTime) : Int :=
  let days := (t.unix + t.offset + 62135596800) / 86400
  let n400 := days / 146097
  let d := days % 146097
  let n := d / 36524
  let n100 := n - n / 4
  let d := d - 36524 * n100
  let n4 := d / 1461
  let d := d - 1461 * n4
  let n := d / 365
  let n1 := n - n / 4
  400 * n400 + 100 * n100 + 4 * n4 + n1 + 1

/-- `dayOffset`, /repo/time.go:37. -/
def dayOffset : List UInt16 := [0, 306, 337, 0, 31, 61, 92, 122, 153, 184, 214, 245, 275]

/-- `rdnToYmd`, /repo/time.go:153-169, in `uint32` arithmetic. `none` is the index
panic of `dayOffset[m]`. -/
def rdnToYmd (rdn : UInt32) : Option (UInt16 × UInt16 × UInt16) :=
  let Z := rdn + 306
  let H := 100 * Z - 25
  let A := H / 3652425
  let B := A - (A >>> 2)
  let y := (100 * B + H) / 36525
  let d := B + Z - ((1461 * y) >>> 2)
  let m := (535 * d + 48950) >>> 14
  let (y, m) := if m > 12 then (y + 1, m - 12) else (y, m)
  match dayOffset[m.toNat]? with
  | none => none
  | some o => some (y.toUInt16, m.toUInt16, d.toUInt16 - o)

/-- Go's conversion `byte(x)` of an `int64`, plus the addition of `'0'` (/repo/time.go:185-201, 211, 240-243). -/
def byteDigit (x : Int) : UInt8 := UInt8.ofNat (x % 256).toNat + 48

/-- Go's conversion `uint32(x)` of an `int64` (/repo/time.go:183). -/
def toU32 (x : Int) : UInt32 := UInt32.ofNat (x % 4294967296).toNat

/-- A write `buf[i] = c`; `none` is the index panic (/repo/time.go:178-250). -/
def wr (i : Nat) (c : UInt8) (buf : Bytes) : Option Bytes :=
  if i < buf.length then some (buf.set i c) else none

/-- `buf[i] = byte(x%10) + '0'; x /= 10` for `i` from `hi` down, `k` times
(/repo/time.go:184-187, 209-213), on a non-negative `x`. -/
def wrDigits : Nat → Nat → Nat → Bytes → Option Bytes
  | 0, _, _, buf => some buf
  | k + 1, hi, x, buf => do
    let buf ← wr hi (UInt8.ofNat (x % 10) + 48) buf
    wrDigits k (hi - 1) (x / 10) buf

/-- The trailing-zero count, /repo/time.go:215-222: positions `n+i`, `n+i-1`, …, `n+1`. -/
def countPad (buf : Bytes) (n : Nat) : Nat → Nat
  | 0 => 0
  | i + 1 => if buf[n + (i + 1)]? = some (c! '0') then countPad buf n i + 1 else 0

/-- Date and time of day, /repo/time.go:175-203. -/
def putDateTime (t : GoTime) : Option Bytes := do
  let buf : Bytes := List.replicate 37 0
  let buf ← wr 0 (c! '"') buf
  let buf ← wr 5 (c! '-') buf
  let buf ← wr 8 (c! '-') buf
  let buf ← wr 11 (c! 'T') buf
  let buf ← wr 14 (c! ':') buf
  let buf ← wr 17 (c! ':') buf
  let sec := t.unix + t.offset + 62135683200
  let (y, m, d) ← rdnToYmd (toU32 (sec.tdiv 86400))
  let buf ← wrDigits 4 4 y.toNat buf
  let buf ← wr 7 (UInt8.ofNat (m.toNat % 10) + 48) buf
  let buf ← wr 6 (UInt8.ofNat (m.toNat / 10 % 10) + 48) buf
  let buf ← wr 10 (UInt8.ofNat (d.toNat % 10) + 48) buf
  let buf ← wr 9 (UInt8.ofNat (d.toNat / 10 % 10) + 48) buf
  let s := sec.tmod 86400
  let buf ← wr 19 (byteDigit (s.tmod 10)) buf
  let s := s.tdiv 10
  let buf ← wr 18 (byteDigit (s.tmod 6)) buf
  let s := s.tdiv 6
  let buf ← wr 16 (byteDigit (s.tmod 10)) buf
  let s := s.tdiv 10
  let buf ← wr 15 (byteDigit (s.tmod 6)) buf
  let s := s.tdiv 6
  let buf ← wr 13 (byteDigit (s.tmod 10)) buf
  let s := s.tdiv 10
  wr 12 (byteDigit (s.tmod 10)) buf

/-- Fractional seconds, /repo/time.go:205-224; returns the buffer and `n`. -/
def putFrac (t : GoTime) (nano : Bool) (buf : Bytes) : Option (Bytes × Nat) :=
  if nano && t.nsec != 0 then do
    let buf ← wr 20 (c! '.') buf
    let buf ← wrDigits 9 29 t.nsec buf
    return (buf, 20 + (10 - countPad buf 20 9))
  else some (buf, 20)

/-- Zone, /repo/time.go:225-245. -/
def putZone (t : GoTime) (buf : Bytes) (n : Nat) : Option (Bytes × Nat) :=
  if t.offset = 0 then do
    let buf ← wr n (c! 'Z') buf
    return (buf, n + 1)
  else do
    let zone := t.offset.tdiv 60
    let buf ← wr n (if zone < 0 then c! '-' else c! '+') buf
    let z := if zone < 0 then -zone else zone
    let buf ← wr (n + 3) (c! ':') buf
    let buf ← wr (n + 5) (byteDigit (z.tmod 10)) buf
    let z := z.tdiv 10
    let buf ← wr (n + 4) (byteDigit (z.tmod 6)) buf
    let z := z.tdiv 6
    let buf ← wr (n + 2) (byteDigit (z.tmod 10)) buf
    let z := z.tdiv 10
    let buf ← wr (n + 1) (byteDigit (z.tmod 10)) buf
    return (buf, n + 6)

/-- `appendRFC3339Time`, /repo/time.go:171-253. -/
def appendRFC3339Time (t : GoTime) (dst : Bytes) (nano : Bool) : Option Bytes := do
  let buf ← putDateTime t
  let (buf, n) ← putFrac t nano buf
  let (buf, n) ← putZone t buf n
  let buf ← wr n (c! '"') buf
  return dst ++ buf.take (n + 1)

/-- The layouts distinguished by `encodeTime`; any other layout is passed to
`time.Time.AppendFormat` (/repo/encode.go:118-128). -/
inductive Layout | rfc3339 | rfc3339Nano | other (layout : Bytes)
  deriving DecidableEq, Repr

/-- `encodeTime`, /repo/encode.go:107-129. `appendFormat t layout` is the text of
`t.AppendFormat(nil, layout)`, a parameter. -/
def encodeTime (appendFormat : GoTime → Bytes → Bytes) (t : GoTime) (dst : Bytes)
    (unixTime : Bool) (layout : Layout) : BRes :=
  let y := goYear t
  if y < 0 ∨ y ≥ 10000 then .err
  else if unixTime then .ok (appendInt dst (Int64.ofInt t.unix))
  else match layout with
    | .rfc3339 =>
      match appendRFC3339Time t dst false with | some b => .ok b | none => .panic
    | .rfc3339Nano =>
      match appendRFC3339Time t dst true with | some b => .ok b | none => .panic
    | .other l => .ok (dst ++ b! "\"" ++ appendFormat t l ++ b! "\"")

end Jettison.Model
