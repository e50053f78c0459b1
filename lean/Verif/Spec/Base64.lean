import Verif.Basic

/-!
# Specification: padded standard base64 (RFC 4648, section 4)

The text is read as a bit string: each character of the alphabet stands for six
bits. The text represents `b` when these bits are the bits of `b`, filled up with
zero bits to a multiple of six, and `=` fills the text up to a multiple of four.
-/

namespace Jettison.Spec

def base64Alphabet : Bytes := b! "ABCDEFGHIJKLMNOPQRSTUVWXYZabcdefghijklmnopqrstuvwxyz0123456789+/"

/-- The lowest `n` bits of `v`, most significant first. -/
def bitsOf (n v : Nat) : List Bool := (List.range n).reverse.map v.testBit

/-- The bits of a byte string. -/
def byteBits (b : Bytes) : List Bool := b.flatMap fun c => bitsOf 8 c.toNat

/-- The bits of a sequence of six bit values. -/
def sextetBits (v : List Nat) : List Bool := v.flatMap (bitsOf 6)

/-- `t` is the padded standard base64 text of `b`. -/
def IsBase64 (b t : Bytes) : Prop :=
  ∃ (v : List Nat) (pad : Nat),
    (∀ i ∈ v, i < 64) ∧ pad < 3 ∧ (v.length + pad) % 4 = 0 ∧
    t = v.map (fun i => base64Alphabet.getD i 0) ++ List.replicate pad (c! '=') ∧
    sextetBits v = byteBits b ++ List.replicate (2 * pad) false

end Jettison.Spec
