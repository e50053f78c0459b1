import Verif.Basic
import Verif.Model.Integer
import Verif.Model.Float

/-!
# Model of the duration encoders (/repo/time.go:40-151, /repo/encode.go:131-153)

The scratch area is the code's `[32]byte` array with the write index `l`/`w`
moving down; a write below index 0 would panic and is `none`.
Quantities bounded by `uint64` and only divided are natural numbers.
-/

namespace Jettison.Model

/-- `var buf [32]byte` and the index where the output begins (/repo/time.go:44-46). -/
structure Scratch where
  buf : Bytes
  w : Nat

/-- The zeroed array with `l = len(buf)` (/repo/time.go:44-46). -/
def Scratch.init : Scratch := ⟨List.replicate 32 0, 32⟩

/-- `l--; buf[l] = c`; `none` is the index-out-of-range panic (/repo/time.go:56-57, 89-90, 97-98,
104-105, 116-117, 120-121, 141-142, 147-148). -/
def Scratch.put (s : Scratch) (c : UInt8) : Option Scratch :=
  if s.w = 0 then none else some ⟨s.buf.set (s.w - 1) c, s.w - 1⟩

/-- `if b { l--; buf[l] = c }` (/repo/time.go:103-106, 146-149). -/
def Scratch.putIf (s : Scratch) (b : Bool) (c : UInt8) : Option Scratch :=
  if b then s.put c else some s

/-- The loop of `fmtInt`, /repo/time.go:119-123 (fuel: `v` iterations suffice). -/
def fmtIntLoop : Nat → Scratch → Nat → Option Scratch
  | 0, s, _ => some s
  | fuel + 1, s, v =>
    if v > 0 then do
      let s ← s.put (UInt8.ofNat (v % 10) + 48)
      fmtIntLoop fuel s (v / 10)
    else some s

/-- `fmtInt`, /repo/time.go:113-126. -/
def fmtInt (s : Scratch) (v : Nat) : Option Scratch :=
  if v = 0 then s.put (c! '0') else fmtIntLoop v s v

/-- The loop of `fmtFrac`, /repo/time.go:137-145; `print` as in the code. -/
def fmtFracLoop : Nat → Scratch → Nat → Bool → Option (Scratch × Nat × Bool)
  | 0, s, v, print => some (s, v, print)
  | n + 1, s, v, print => do
    let digit := v % 10
    let print := print || digit != 0
    let s ← s.putIf print (UInt8.ofNat digit + 48)
    fmtFracLoop n s (v / 10) print

/-- `fmtFrac`, /repo/time.go:133-151. -/
def fmtFrac (s : Scratch) (v prec : Nat) : Option (Scratch × Nat) := do
  let (s, v, print) ← fmtFracLoop prec s v false
  let s ← s.putIf print (c! '.')
  return (s, v)

/-- Minutes and hours, /repo/time.go:87-101 (`u` is in minutes). -/
def fmtMinHour (s : Scratch) (u : Nat) : Option Scratch :=
  if u > 0 then do
    let s ← s.put (c! 'm')
    let s ← fmtInt s (u % 60)
    if u / 60 > 0 then do
      let s ← s.put (c! 'h')
      fmtInt s (u / 60)
    else some s
  else some s

/-- Unit suffix after the `s` and precision for 0 < u < 1s, /repo/time.go:55-74. -/
def putSmallUnit (s : Scratch) (u : Nat) : Option (Scratch × Nat) :=
  if u < 1000 then do return (← s.put (c! 'n'), 0)
  else if u < 1000000 then do
    -- l -= 2 in total; copy(buf[l:], "µ"), bytes 0xC2 0xB5
    let s ← s.put 0xB5
    return (← s.put 0xC2, 3)
  else do return (← s.put (c! 'm'), 6)

/-- `appendDuration`, /repo/time.go:43-108. -/
def appendDuration (dst : Bytes) (d : Int64) : Option Bytes := do
  let n := decide (d < 0)
  let u := (if n then -d.toUInt64 else d.toUInt64).toNat
  let s := Scratch.init
  if u < 1000000000 then
    let s ← s.put (c! 's')
    if u = 0 then
      return dst ++ b! "0s"
    let (s, prec) ← putSmallUnit s u
    let (s, u) ← fmtFrac s u prec
    let s ← fmtInt s u
    let s ← s.putIf n (c! '-')
    return dst ++ s.buf.drop s.w
  else
    let s ← s.put (c! 's')
    let (s, u) ← fmtFrac s u 9
    let s ← fmtInt s (u % 60)
    let s ← fmtMinHour s (u / 60)
    let s ← s.putIf n (c! '-')
    return dst ++ s.buf.drop s.w

/-- The duration formats, /repo/time.go:12-19. -/
inductive DurFmt | str | minutes | seconds | milliseconds | microseconds | nanoseconds
  deriving DecidableEq, Repr

/-- The outcome of an encoder over bytes: a buffer, an error, or a Go panic. The results of the
functions of /repo/encode.go:107-153. -/
inductive BRes
  | ok (b : Bytes) | err | panic
  deriving DecidableEq, Repr

/-- Floating point conversions `d.Minutes()` and `d.Seconds()` of the time package,
as float64 bit patterns. Parameters (/repo/encode.go:139-142). -/
structure DurFloat where
  minutes : Int64 → Nat
  seconds : Int64 → Nat

/-- `encodeDuration`, /repo/encode.go:133-153. Go's integer division truncates
toward zero, which is `Int64` division. -/
def encodeDuration (fmt : FloatFmt) (df : DurFloat) (d : Int64) (dst : Bytes) (f : DurFmt) : BRes :=
  match f with
  | .nanoseconds => .ok (appendInt dst d)
  | .minutes =>
    match appendFloat fmt dst .f64 (df.minutes d) with | .ok b => .ok b | .error _ => .err
  | .seconds =>
    match appendFloat fmt dst .f64 (df.seconds d) with | .ok b => .ok b | .error _ => .err
  | .microseconds => .ok (appendInt dst (d / 1000))
  | .milliseconds => .ok (appendInt dst (d / 1000000))
  | .str =>
    match appendDuration (dst ++ b! "\"") d with
    | some b => .ok (b ++ b! "\"")
    | none => .panic

/-- The number that `encodeDuration` passes to `appendFloat`, /repo/encode.go:139-142, which the
error names (/repo/encode.go:157-160). The other formats do not call it. -/
def durFloatOf (df : DurFloat) (d : Int64) : DurFmt → Nat
  | .minutes => df.minutes d
  | .seconds => df.seconds d
  | _ => 0

end Jettison.Model
