import Verif.Spec.Doc
import Verif.Spec.Part

/-!
# Specification: data that can be recovered from its text

`Carried` are the values, part by part, whose JSON text keeps everything, and `Alike` is what
equality of the texts amounts to: equal, up to the order of the entries of maps, the sign of a
floating-point zero and what the options and tags leave out of a struct on both sides.
-/

namespace Jettison.Spec
open Jettison Jettison.Model

/-- The value of a finite float, in units of the least positive number of the format. -/
def signedUnits (w : FWidth) (bits : Nat) : Int :=
  if bits / 2 ^ (w.mant + w.exp) % 2 = 1 then -(finiteUnits w bits : Int) else finiteUnits w bits

/-- What the documentation of `strconv.AppendFloat` says of precision -1: the digits represent the
value uniquely. -/
def ReadsBack (fmt : FloatFmt) (w : FWidth) : Prop :=
  ∀ b b' f f' m e, IsFinite w b → IsFinite w b' → NumDenotes (fmt w b f) m e → NumDenotes (fmt w b' f') m e →
    signedUnits w b = signedUnits w b'

/-- Bytes that a string keeps: valid UTF-8, or any with NoUTF8Coercion. -/
def KeptText (o : EncOpts) (s : Bytes) : Prop := bmHas o.flags .noUTF8Coercion = true ∨ ValidUtf8 s

/-- A type with a nil value that is encoded as `null`. -/
def HasNil (E : Env) (t : TId) : Prop :=
  IsPtr E t ∨ (∃ e, (E t).kind = .slice e) ∨ (∃ k e, (E t).kind = .map k e) ∨ IsIface E t

/-- A value, its parts not considered, that its text determines: of a type without methods, a
duration encoded in full, or a time encoded with nanoseconds and a zone of whole minutes; not an
interface (whose dynamic type is lost); strings are valid UTF-8 (or not coerced); pointers do not
point to what can be nil itself; nil and empty slices and maps are told apart; keys of maps are
strings or integers; fields with the `string` tag option need no escapes (finding 3), and those with `omitnil` have no
`MarshalJSON` method (finding 1). -/
structure Carried (W : World) (o : EncOpts) (t : TId) (v : Val) : Prop where
  special : (W.E t).special = none ∨ (W.E t).special = some .duration ∨ (W.E t).special = some .time
  duration : (W.E t).special = some .duration → o.durFmt = .str ∨ o.durFmt = .nanoseconds
  time : (W.E t).special = some .time → bmHas o.flags .unixTime = false ∧ o.layout = .rfc3339Nano
  zone : ∀ x, v = .time x → TimeFine W o x ∧ x.offset % 60 = 0 ∧ x.offset.natAbs < 360000
  meths : (W.E t).special = none → ¬ MethSet.any (W.E t).meths ∧ ¬ MethSet.any (W.E t).pmeths
  iface : ¬ IsIface W.E t
  other : (W.E t).kind ≠ .other
  float : ∀ w, (W.E t).kind = .float w → ReadsBack W.fmt w
  str : ∀ s, v = .str s → KeptText o s
  bytes : ∀ e vs b, (W.E t).kind = .slice e → ByteElem W.E e → bmHas o.flags .rawByteSlice = true → v = .slice vs → AsBytes vs b → KeptText o b
  byteArray : ∀ n e vs b, (W.E t).kind = .array n e → ByteElem W.E e → bmHas o.flags .byteArrayAsString = true → v = .array vs → AsBytes vs b →
    KeptText o b
  ptr : ∀ e, (W.E t).kind = .ptr e → ¬ HasNil W.E e
  slice : ∀ e, (W.E t).kind = .slice e → bmHas o.flags .nilSliceEmpty = false
  map : ∀ k e, (W.E t).kind = .map k e → bmHas o.flags .nilMapEmpty = false ∧ (W.E k).special = none ∧
    ((W.E k).kind = .string ∨ ∃ i, (W.E k).kind = .int i)
  tag : ∀ m x, ChosenField W.U.isLetter W.U.isDigit W.E t m → FieldAt v m.path x → HasOpt m.decl (b! "string") → BasicOrPtr W.E m.decl.typ →
    TagFine W o m.decl.typ x
  null : ∀ m, IsStruct W.E t → ChosenField W.U.isLetter W.U.isDigit W.E t m → HasOpt m.decl (b! "omitnil") → ¬ HasMarshalJSON W.E m.decl.typ

/-- The values are equal, but for the order of the entries of maps, the sign of a zero, and what
is left out of a struct in both. -/
inductive Alike (W : World) (o : EncOpts) : TId → Val → Val → Prop
  | refl {t v} : Alike W o t v v
  | float {t w b b'} : signedUnits w b = signedUnits w b' → Alike W o t (.float w b) (.float w b')
  | ptr {t e v v'} : (W.E t).kind = .ptr e → Alike W o e v v' → Alike W o t (.ptr v) (.ptr v')
  | slice {t e vs vs'} : (W.E t).kind = .slice e → vs.length = vs'.length →
      (∀ (i : Nat) v v', vs[i]? = some v → vs'[i]? = some v' → Alike W o e v v') → Alike W o t (.slice vs) (.slice vs')
  | array {t n e vs vs'} : (W.E t).kind = .array n e → vs.length = vs'.length →
      (∀ (i : Nat) v v', vs[i]? = some v → vs'[i]? = some v' → Alike W o e v v') → Alike W o t (.array vs) (.array vs')
  | map {t k e} {kvs kvs' perm : List (Val × Val)} : (W.E t).kind = .map k e → perm.Perm kvs' → kvs.length = perm.length →
      (∀ (i : Nat) kv kv', kvs[i]? = some kv → perm[i]? = some kv' → kv.1 = kv'.1) →
      (∀ (i : Nat) kv kv', kvs[i]? = some kv → perm[i]? = some kv' → Alike W o e kv.2 kv'.2) → Alike W o t (.map kvs) (.map kvs')
  | struct {t v v'} : (W.E t).special = none → IsStruct W.E t →
      (∀ m, ChosenField W.U.isLetter W.U.isDigit W.E t m → (LeftOut o v m ↔ LeftOut o v' m)) →
      (∀ m, ChosenField W.U.isLetter W.U.isDigit W.E t m → ¬ LeftOut o v m → (∃ x, FieldAt v m.path x) ∧ ∃ x, FieldAt v' m.path x) →
      (∀ m x x', ChosenField W.U.isLetter W.U.isDigit W.E t m → ¬ LeftOut o v m → FieldAt v m.path x → FieldAt v' m.path x' →
        Alike W o m.decl.typ x x') → Alike W o t v v'

/-- A type whose values are carried whole: not a float, not a map, and each field of a struct is a
member that is never left out. -/
structure Whole (W : World) (o : EncOpts) (t : TId) : Prop where
  float : ∀ w, (W.E t).kind ≠ .float w
  map : ∀ k e, (W.E t).kind ≠ .map k e
  field : ∀ fs (i : Nat) f, (W.E t).special = none → (W.E t).kind = .struct fs → fs[i]? = some f →
    ∃ name, ChosenField W.U.isLetter W.U.isDigit W.E t ⟨[i], f, name⟩ ∧ ¬ HasOpt f (b! "omitnil") ∧ ¬ HasOpt f (b! "omitempty") ∧
      ¬ Hidden o.allowList o.denyList name

end Jettison.Spec
