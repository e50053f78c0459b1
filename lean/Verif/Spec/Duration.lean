import Verif.Spec.JsonNumber

/-!
# Specification: reading a Go duration text

Written from the documentation of `time.ParseDuration`: "a possibly signed
sequence of decimal numbers, each with optional fraction and a unit suffix, such
as 300ms, -1.5h or 2h45m; valid units are ns, us (or µs), ms, s, m, h". The
reading is exact: a text that is not a whole number of nanoseconds is `none`.
-/

namespace Jettison.Spec

/-- Nanoseconds of a unit suffix. -/
def unitNs (u : Bytes) : Option Nat :=
  if u = b! "ns" then some 1
  else if u = b! "us" ∨ u = b! "µs" ∨ u = b! "μs" then some 1000
  else if u = b! "ms" then some 1000000
  else if u = b! "s" then some 1000000000
  else if u = b! "m" then some 60000000000
  else if u = b! "h" then some 3600000000000
  else none

/-- Decimal digit test. -/
def dig (c : UInt8) : Bool := decide (IsDigit c)
/-- A byte that can belong to a unit suffix. -/
def unitByte (c : UInt8) : Bool := !dig c && c != c! '.'

/-- The optional fraction at the front: its digits and the rest. -/
def readFrac (s : Bytes) : Bytes × Bytes :=
  match s with
  | c :: r => if c = c! '.' then (r.takeWhile dig, r.dropWhile dig) else ([], s)
  | [] => ([], [])

/-- Sum of a sequence of components, in nanoseconds (`fuel` bounds their number). -/
def readComps : Nat → Bytes → Option Nat
  | 0, _ => none
  | fuel + 1, s =>
    let i := s.takeWhile dig
    let fr := readFrac (s.dropWhile dig)
    let u := fr.2.takeWhile unitByte
    let rest := fr.2.dropWhile unitByte
    if i = [] ∧ fr.1 = [] then none
    else match unitNs u with
      | none => none
      | some U =>
        let num := digitsVal (i ++ fr.1) * U
        if num % 10 ^ fr.1.length ≠ 0 then none
        else if rest = [] then some (num / 10 ^ fr.1.length)
        else (readComps fuel rest).map (num / 10 ^ fr.1.length + ·)

/-- The duration, in nanoseconds, denoted by a text. -/
def readDuration (s : Bytes) : Option Int :=
  match s with
  | c :: r =>
    if c = c! '-' then (readComps (r.length + 1) r).map (fun n : Nat => -(n : Int))
    else (readComps (s.length + 1) s).map (fun n : Nat => (n : Int))
  | [] => none

example : readDuration (b! "-1h2m3.5s") = some (-3723500000000) := by decide +kernel
example : readDuration (b! "1.5µs") = some 1500 := by decide +kernel
example : readDuration (b! "1.5x") = none := by decide +kernel

end Jettison.Spec
