import Verif.Basic

/-! # Specification: texts of objects and arrays -/

namespace Jettison.Spec
open Jettison

/-- Texts separated by commas. -/
def commas : List Bytes → Bytes
  | [] => []
  | [x] => x
  | x :: y :: t => x ++ b! "," ++ commas (y :: t)

end Jettison.Spec
