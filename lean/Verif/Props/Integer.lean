import Verif.Proofs.Integer
import Verif.Spec.Ints

/-! # Property C08: integers -/

namespace Jettison.Props
open Jettison.Spec Jettison.Model Jettison.Proofs

/-- **C08.** Every integer of every kind encodes to the canonical decimal literal
of exactly its value (`IntLiteral`: no leading zero, minus sign only when negative). -/
theorem C08_integer_literal (v : IntVal) (dst : Bytes) :
    ∃ out, encodeIntVal v dst = dst ++ out ∧ IntLiteral out (intOf v) := by
  cases v <;> simp only [encodeIntVal, intOf]
  case int v => exact appendInt_lit dst v
  case int64 v => exact appendInt_lit dst v
  case int8 v => simpa using appendInt_lit dst v.toInt64
  case int16 v => simpa using appendInt_lit dst v.toInt64
  case int32 v => simpa using appendInt_lit dst v.toInt64
  case uint v => exact appendUint_lit dst v
  case uint64 v => exact appendUint_lit dst v
  case uintptr v => exact appendUint_lit dst v
  case uint8 v => simpa using appendUint_lit dst v.toUInt64
  case uint16 v => simpa using appendUint_lit dst v.toUInt64
  case uint32 v => simpa using appendUint_lit dst v.toUInt64

/-- **C08.** The literal is an RFC 8259 number. -/
theorem C08_integer_number (v : IntVal) (dst : Bytes) :
    ∃ out, encodeIntVal v dst = dst ++ out ∧ IsNumber out := by
  obtain ⟨out, h1, h2⟩ := C08_integer_literal v dst
  exact ⟨out, h1, intLiteral_isNumber h2⟩

/-- **C08.** Equal texts mean equal integers, across all kinds. -/
theorem C08_integer_injective (v w : IntVal) (dst : Bytes)
    (h : encodeIntVal v dst = encodeIntVal w dst) : intOf v = intOf w := by
  obtain ⟨o1, h1, h2⟩ := C08_integer_literal v dst
  obtain ⟨o2, h3, h4⟩ := C08_integer_literal w dst
  rw [h1, h3] at h
  rw [← List.append_cancel_left h] at h4
  exact intLiteral_functional h2 h4

example : encodeIntVal (.int64 Int64.minValue) (b! "[") = b! "[-9223372036854775808" := by
  decide +kernel
example : encodeIntVal (.int8 (-1)) [] = b! "-1" := by decide +kernel
example : intOf (.uint64 18446744073709551615) = 18446744073709551615 := by decide +kernel

end Jettison.Props
