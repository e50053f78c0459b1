import Verif.Spec.Respell
import Verif.Spec.Writes

/-!
# Specification: the same data in other forms

`Recast W o o' j j'`: the trees have the same members, elements and nesting and the same leaves, but where
the options `o` and `o'` ask for different forms: nil maps and slices, bytes, times and durations.
-/

namespace Jettison.Spec
open Jettison Jettison.Model

/-- A string or a number. -/
def Scalar (j : Json) : Prop := (∃ s, j = .str s) ∨ ∃ s, j = .num s

/-- The content of a string that the bytes are written as. -/
def WrittenContent (o : EncOpts) (x c : Bytes) : Prop := ∃ r, SpelledAs o x r ∧ unescape r = some c

/-- Trees that differ in the order of members of objects and in the forms that options ask for. -/
inductive Recast (W : World) (o o' : EncOpts) : Json → Json → Prop
  | same (j : Json) : Recast W o o' j j
  | arr {l : List (Json × Json)} : (∀ x ∈ l, Recast W o o' x.1 x.2) → Recast W o o' (.arr (l.map fun x => x.1)) (.arr (l.map fun x => x.2))
  | obj {l : List (Bytes × Json × Json)} {ms ms' : List (Bytes × Json)} : ms.Perm (l.map fun x => (x.1, x.2.1)) → ms'.Perm (l.map fun x => (x.1, x.2.2)) →
      (∀ x ∈ l, Recast W o o' x.2.1 x.2.2) → Recast W o o' (.obj ms) (.obj ms')
  -- NilMapEmpty
  | mapEmpty : bmHas o.flags .nilMapEmpty = false → bmHas o'.flags .nilMapEmpty = true → Recast W o o' .null (.obj [])
  | mapNull : bmHas o.flags .nilMapEmpty = true → bmHas o'.flags .nilMapEmpty = false → Recast W o o' (.obj []) .null
  -- NilSliceEmpty
  | sliceEmpty : bmHas o.flags .nilSliceEmpty = false → bmHas o'.flags .nilSliceEmpty = true → Recast W o o' .null (.arr [])
  | sliceNull : bmHas o.flags .nilSliceEmpty = true → bmHas o'.flags .nilSliceEmpty = false → Recast W o o' (.arr []) .null
  -- RawByteSlice: base64 of the bytes, or the bytes
  | bytesRaw {x a c} : bmHas o.flags .rawByteSlice = false → bmHas o'.flags .rawByteSlice = true → IsBase64 x a → WrittenContent o' x c → Recast W o o' (.str a) (.str c)
  | bytesBase64 {x a c} : bmHas o.flags .rawByteSlice = true → bmHas o'.flags .rawByteSlice = false → WrittenContent o x c → IsBase64 x a → Recast W o o' (.str c) (.str a)
  -- ByteArrayAsString: one element for each byte, or the bytes
  | arrayString {x js c} : bmHas o.flags .byteArrayAsString = false → bmHas o'.flags .byteArrayAsString = true → js.length = x.length → WrittenContent o' x c →
      Recast W o o' (.arr js) (.str c)
  | arrayElems {x js c} : bmHas o.flags .byteArrayAsString = true → bmHas o'.flags .byteArrayAsString = false → WrittenContent o x c → js.length = x.length →
      Recast W o o' (.str c) (.arr js)
  -- UnixTime, TimeLayout and DurationFormat
  | time {x b b' j j'} : ¬ SameTimes o o' → TimeText W o x b → JsonText j b → Scalar j → TimeText W o' x b' → JsonText j' b' → Scalar j' → Recast W o o' j j'
  | duration {d b b' j j'} : ¬ SameTimes o o' → DurationText W o d b → JsonText j b → Scalar j → DurationText W o' d b' → JsonText j' b' → Scalar j' →
      Recast W o o' j j'

/-- Both texts are JSON, of such trees. -/
def RecastTree (W : World) (o o' : EncOpts) (b b' : Bytes) : Prop := ∃ j j', JsonText j b ∧ JsonText j' b' ∧ Recast W o o' j j'

/-- The options are alike but for those about spelling and form. -/
structure FormAlike (o o' : EncOpts) : Prop where
  ctx : o.ctx = o'.ctx
  allow : o.allowList = o'.allowList
  deny : o.denyList = o'.denyList
  esc : bmHas o.flags .noStringEscaping = bmHas o'.flags .noStringEscaping
  utf8 : bmHas o.flags .noUTF8Coercion = bmHas o'.flags .noUTF8Coercion

/-- No key of a map is of a natively handled type. -/
structure NoNativeKeys (W : World) (t : TId) (v : Val) : Prop where
  key : ∀ t' k e kvs, Within W.E t v t' (.map kvs) → (W.E t').kind = .map k e → (W.E k).special = none
  skey : ∀ t' kvs kv d x, Within W.E t v t' (.smap kvs) → kv ∈ kvs → kv.1 = .iface d x → (W.E d).special = none

end Jettison.Spec
