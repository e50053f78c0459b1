import Verif.Model.Integer

/-! # Specification: the values of Go integers -/

namespace Jettison.Spec
open Jettison.Model

/-- The mathematical integer held by a Go integer variable. -/
def intOf : IntVal → Int
  | .int v | .int64 v => v.toInt
  | .int8 v => v.toInt
  | .int16 v => v.toInt
  | .int32 v => v.toInt
  | .uint v | .uint64 v | .uintptr v => v.toNat
  | .uint8 v => v.toNat
  | .uint16 v => v.toNat
  | .uint32 v => v.toNat

end Jettison.Spec
