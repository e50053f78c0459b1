import Verif.Basic

/-!
# Specification: UTF-8 (RFC 3629)

Written from the RFC, independently of the model of `utf8.DecodeRune`.
-/

namespace Jettison.Spec

/-- Unicode scalar values: code points that are not surrogates. -/
def IsScalar (cp : Nat) : Prop := cp < 0xD800 ∨ (0xE000 ≤ cp ∧ cp < 0x110000)

instance (cp : Nat) : Decidable (IsScalar cp) := by unfold IsScalar; infer_instance

/-- The UTF-8 encoding of a code point (RFC 3629, section 3). -/
def utf8Encode (cp : Nat) : Bytes :=
  if cp < 0x80 then [UInt8.ofNat cp]
  else if cp < 0x800 then [UInt8.ofNat (0xC0 + cp / 64), UInt8.ofNat (0x80 + cp % 64)]
  else if cp < 0x10000 then
    [UInt8.ofNat (0xE0 + cp / 4096), UInt8.ofNat (0x80 + cp / 64 % 64),
     UInt8.ofNat (0x80 + cp % 64)]
  else
    [UInt8.ofNat (0xF0 + cp / 262144), UInt8.ofNat (0x80 + cp / 4096 % 64),
     UInt8.ofNat (0x80 + cp / 64 % 64), UInt8.ofNat (0x80 + cp % 64)]

/-- A byte string is valid UTF-8 when it is the concatenation of the encodings
of some scalar values. -/
def ValidUtf8 (s : Bytes) : Prop :=
  ∃ cps : List Nat, (∀ c ∈ cps, IsScalar c) ∧ s = cps.flatMap utf8Encode

/-- No scalar value's encoding starts here: the first byte is "invalid". -/
def BadStart (s : Bytes) : Prop := ∀ cp, IsScalar cp → ¬ utf8Encode cp <+: s

/-- UTF-8 encoding of U+FFFD, the replacement character. -/
def replacement : Bytes := [0xEF, 0xBF, 0xBD]

/-- `Coerced s out`: `out` is `s` with each invalid byte replaced by U+FFFD and
each well-formed sequence kept. -/
inductive Coerced : Bytes → Bytes → Prop
  | nil : Coerced [] []
  | good (cp : Nat) (rest out : Bytes) (h : IsScalar cp) (hr : Coerced rest out) :
      Coerced (utf8Encode cp ++ rest) (utf8Encode cp ++ out)
  | bad (b : UInt8) (rest out : Bytes) (h : BadStart (b :: rest)) (hr : Coerced rest out) :
      Coerced (b :: rest) (replacement ++ out)

end Jettison.Spec
