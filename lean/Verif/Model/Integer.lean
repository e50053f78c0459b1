import Verif.Basic

/-!
# Model of /repo/integer.go

The encoders read the integer at its width, widen it to 64 bits and call
`strconv.AppendInt`/`AppendUint` in base 10.
-/

namespace Jettison.Model

/-- Decimal digits of a natural number, most significant first: the loop of
`strconv.formatBits` for base 10 (Go standard library; the two-digits-at-a-time
and small-number fast paths produce the same text). Called at /repo/integer.go:12. -/
def fmtNatAux : Nat → Nat → Bytes
  | 0, n => [UInt8.ofNat (48 + n)]
  | fuel + 1, n =>
    if n < 10 then [UInt8.ofNat (48 + n)]
    else fmtNatAux fuel (n / 10) ++ [UInt8.ofNat (48 + n % 10)]

/-- See `fmtNatAux`; the fuel `n` always suffices (`fmtNat_eq`). Called at /repo/integer.go:12. -/
def fmtNat (n : Nat) : Bytes := fmtNatAux n n

theorem fmtNatAux_fuel (f g n : Nat) (hf : n ≤ f) (hg : n ≤ g) :
    fmtNatAux f n = fmtNatAux g n := by
  induction f generalizing g n with
  | zero =>
    have : n = 0 := by omega
    subst this
    cases g <;> simp [fmtNatAux]
  | succ f ih =>
    cases g with
    | zero =>
      have : n = 0 := by omega
      subst this
      simp [fmtNatAux]
    | succ g =>
      simp only [fmtNatAux]
      split
      · rfl
      · rw [ih g (n / 10) (by omega) (by omega)]

/-- The recursion equation of the digit loop. -/
theorem fmtNat_eq (n : Nat) : fmtNat n =
    if n < 10 then [UInt8.ofNat (48 + n)]
    else fmtNat (n / 10) ++ [UInt8.ofNat (48 + n % 10)] := by
  unfold fmtNat
  cases n with
  | zero => simp [fmtNatAux]
  | succ n =>
    conv => lhs; unfold fmtNatAux
    split
    · rfl
    · rw [fmtNatAux_fuel n ((n + 1) / 10) _ (by omega) (Nat.le_refl _)]

/-- `strconv.AppendUint(dst, u, 10)` (/repo/integer.go:44-83). -/
def appendUint (dst : Bytes) (u : UInt64) : Bytes := dst ++ fmtNat u.toNat

/-- `strconv.AppendInt(dst, i, 10)`: negative numbers are negated as `uint64`
(wrapping), which is what makes the minimum value work (/repo/integer.go:9-42, /repo/encode.go:116, 138, 144, 146). -/
def appendInt (dst : Bytes) (i : Int64) : Bytes :=
  if i < 0 then dst ++ (c! '-' :: fmtNat (-i.toUInt64).toNat)
  else dst ++ fmtNat i.toUInt64.toNat

/-- An integer of one of the Go kinds, as read through the unsafe pointer.
`int`, `uint` and `uintptr` are 64 bits wide (amd64) (/repo/integer.go:9-83). -/
inductive IntVal
  | int (v : Int64) | int8 (v : Int8) | int16 (v : Int16) | int32 (v : Int32) | int64 (v : Int64)
  | uint (v : UInt64) | uint8 (v : UInt8) | uint16 (v : UInt16) | uint32 (v : UInt32)
  | uint64 (v : UInt64) | uintptr (v : UInt64)
  deriving DecidableEq, Repr

/-- `encodeInt` … `encodeUintptr`, /repo/integer.go:9-83. -/
def encodeIntVal (v : IntVal) (dst : Bytes) : Bytes :=
  match v with
  | .int v => appendInt dst v
  | .int8 v => appendInt dst v.toInt64
  | .int16 v => appendInt dst v.toInt64
  | .int32 v => appendInt dst v.toInt64
  | .int64 v => appendInt dst v
  | .uint v => appendUint dst v
  | .uint8 v => appendUint dst v.toUInt64
  | .uint16 v => appendUint dst v.toUInt64
  | .uint32 v => appendUint dst v.toUInt64
  | .uint64 v => appendUint dst v
  | .uintptr v => appendUint dst v

end Jettison.Model
