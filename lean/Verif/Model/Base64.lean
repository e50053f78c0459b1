import Verif.Model.Escape

/-!
# Model: byte slices (/repo/encode.go:278-305)
-/

namespace Jettison.Model

/-- A Go `[]byte` with its backing array: `arr.length` is the capacity, the first
`len` bytes are the content. Slices that do not start at the beginning of their
backing array are not distinguished from those that do (/repo/encode.go:283-305 uses `len` and `cap` of `dst`). -/
structure GoBuf where
  arr : Bytes
  len : Nat
  ok : len ≤ arr.length

/-- The content of the slice. `dst` of /repo/encode.go:283. -/
def GoBuf.bytes (s : GoBuf) : Bytes := s.arr.take s.len

/-- encoding/base64 `encodeStd`, used at /repo/encode.go:300. -/
def encodeStd : Bytes := b! "ABCDEFGHIJKLMNOPQRSTUVWXYZabcdefghijklmnopqrstuvwxyz0123456789+/"

/-- encoding/base64 `EncodedLen` with padding, used at /repo/encode.go:293. -/
def encodedLen (n : Nat) : Nat := (n + 2) / 3 * 4

/-- `enc.encode[v & 0x3F]` of encoding/base64, called at /repo/encode.go:300. -/
def encChar (v : Nat) : UInt8 := encodeStd.getD (v &&& 0x3F) 0

/-- encoding/base64 `(*Encoding).Encode` of the standard encoding, used at
/repo/encode.go:300: three bytes at a time, then the remainder with padding. The bytes
written are returned instead of being stored. -/
def stdEncode : Bytes → Bytes
  | a :: b :: c :: t =>
    let val := (a.toNat <<< 16) ||| (b.toNat <<< 8) ||| c.toNat
    encChar (val >>> 18) :: encChar (val >>> 12) :: encChar (val >>> 6) :: encChar val :: stdEncode t
  | [a, b] =>
    let val := (a.toNat <<< 16) ||| (b.toNat <<< 8)
    [encChar (val >>> 18), encChar (val >>> 12), encChar (val >>> 6), c! '=']
  | [a] =>
    let val := a.toNat <<< 16
    [encChar (val >>> 18), encChar (val >>> 12), c! '=', c! '=']
  | [] => []

/-- Store `w` in the array `arr` from index `i` on; `none` models the panic of a
write outside `arr`. The writes of `Encode`, /repo/encode.go:300. -/
def store (arr : Bytes) (i : Nat) (w : Bytes) : Option Bytes :=
  if i + w.length ≤ arr.length then some (arr.take i ++ w ++ arr.drop (i + w.length)) else none

/-- /repo/encode.go:293-302: reserve room for the base64 text of `b` after the content
of `dst`, write it there and extend the slice. `none` models a run-time panic:
`dst[len(dst):end]` with `end` above the capacity, `dst[:end]` likewise, or a
write past the end. -/
def appendBase64 (dst : GoBuf) (b : Bytes) : Option GoBuf :=
  let n := encodedLen b.length
  let a := dst.arr.length - dst.len
  -- `new := make([]byte, cap(dst)+(n-a)); copy(new, dst); dst = new[:len(dst)]`
  let arr := if a < n then dst.bytes ++ List.replicate (dst.arr.length + (n - a) - dst.len) 0 else dst.arr
  let fin := dst.len + n
  if fin ≤ arr.length then
    match store (slice arr dst.len fin) 0 (stdEncode b) with
    | none => none
    | some w => if h : fin ≤ (arr.take dst.len ++ w ++ arr.drop fin).length then
        some ⟨arr.take dst.len ++ w ++ arr.drop fin, fin, h⟩ else none
  else none

/-- /repo/encode.go:283-305 on the content of the destination: `b = none` is the nil
slice. `raw` is the RawByteSlice flag. The base64 branch is `appendBase64` with
the destination's spare capacity irrelevant to the content
(`C16_reserve` relates the two). -/
def encodeByteSlice (b : Option Bytes) (dst : Bytes) (o : EscOpts) (raw : Bool) : Bytes :=
  match b with
  | none => dst ++ b! "null"
  | some b =>
    let dst := dst ++ [c! '"']
    let dst := if raw then appendEscapedBytes dst b o else dst ++ stdEncode b
    dst ++ [c! '"']

end Jettison.Model
