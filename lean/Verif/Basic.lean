/-!
# Bytes and literals

Go `[]byte` and `string` contents are modelled as lists of `UInt8`.
`b! "text"` expands, at elaboration time, to the explicit list of the UTF-8
bytes of the text and `c! 'x'` to the explicit byte of an ASCII character, so
nothing about Lean's `String` type enters the model.
-/

namespace Jettison

abbrev Bytes := List UInt8

open Lean in
/-- `b! "ab"` is `([97, 98] : List UInt8)`. -/
macro "b! " s:str : term => do
  let elems ← s.getString.toUTF8.toList.toArray.mapM fun b =>
    return (Syntax.mkNumLit (toString b.toNat) : TSyntax `term)
  `(([$elems,*] : List UInt8))

open Lean in
/-- `c! 'a'` is `(97 : UInt8)`. -/
macro "c! " c:char : term => do
  let n : TSyntax `term := Syntax.mkNumLit (toString c.getChar.toNat)
  `(($n : UInt8))

/-- Go slice expression `b[lo:hi]`. -/
def slice (b : Bytes) (lo hi : Nat) : Bytes := (b.take hi).drop lo

/-- Lift a decision over the 256 byte values to all bytes. -/
theorem forall_byte {p : UInt8 → Prop} (h : ∀ n : Fin 256, p (UInt8.ofNat n.val)) (b : UInt8) :
    p b := by
  have := h ⟨b.toNat, UInt8.toNat_lt b⟩
  simpa using this

example : b! "aµ" = [97, 0xC2, 0xB5] := rfl

end Jettison
