import Verif.Spec.Faults
import Verif.Model.Api

/-!
# Specification: what an error message says

`Blames W N M o txt t ca v`: the text, read as a sentence about the part `v` of type `t`, is true
of it. Beside the fixed words a text has the name `typ` of a type, a number literal in quotes or
the message `user` of another error.
-/

namespace Jettison.Spec
open Jettison Jettison.Model

/-- Positive infinity: exponent all ones, no sign, no mantissa. -/
def posInf : FWidth → Nat | .f32 => 0x7F800000 | .f64 => 0x7FF0000000000000
/-- Negative infinity. -/
def negInf : FWidth → Nat | .f32 => 0xFF800000 | .f64 => 0xFFF0000000000000
/-- The number of bits. -/
def FWidth.bits : FWidth → Nat | .f32 => 32 | .f64 => 64

/-- The number with these bits; of a longer pattern only the low bits count. -/
def IsBits (w : FWidth) (b n : Nat) : Prop := b % 2 ^ w.bits = n

/-- Not a number: not finite and none of the infinities. -/
def IsNaN (w : FWidth) (b : Nat) : Prop := ¬ IsFinite w b ∧ ¬ IsBits w b (posInf w) ∧ ¬ IsBits w b (negInf w)

/-- The methods as a user calls them. -/
def methodName : MethKind → Bytes
  | .appendCtx => b! "AppendJSONContext"
  | .append => b! "AppendJSON"
  | .json => b! "MarshalJSON"
  | .text => b! "MarshalText"

/-- The floating point numbers that a value of the type is written as. -/
inductive IsFloat (W : World) (o : EncOpts) (t : TId) (ca : Bool) : Val → FWidth → Nat → Prop
  | float {w b} : ByKind W.E t ca → (W.E t).kind = .float w → IsFloat W o t ca (.float w b) w b
  | seconds {d} : (W.E t).special = some .duration → o.durFmt = .seconds → IsFloat W o t ca (.int (.int64 d)) .f64 (W.df.seconds d)
  | minutes {d} : (W.E t).special = some .duration → o.durFmt = .minutes → IsFloat W o t ca (.int (.int64 d)) .f64 (W.df.minutes d)

/-- The text is about the part and true of it. -/
inductive Blames (W : World) (typ : TId → Bytes) (quote : Bytes → Bytes) (user : Nat → Bytes) (M : MethV) (o : EncOpts) : Bytes → TId → Bool → Val → Prop
  | nan {t ca v w b} : IsFloat W o t ca v w b → IsNaN w b → Blames W typ quote user M o (b! "json: unsupported value: NaN") t ca v
  | posInf {t ca v w b} : IsFloat W o t ca v w b → IsBits w b (posInf w) → Blames W typ quote user M o (b! "json: unsupported value: +Inf") t ca v
  | negInf {t ca v w b} : IsFloat W o t ca v w b → IsBits w b (negInf w) → Blames W typ quote user M o (b! "json: unsupported value: -Inf") t ca v
  | number {t ca s} : (W.E t).special = some .number → ¬ IsNumber s → Blames W typ quote user M o (b! "json: invalid number literal " ++ quote s) t ca (.str s)
  | time {t ca x} : (W.E t).special = some .time → ¬ HasYear x → Blames W typ quote user M o (b! "time: year outside of range [0,9999]") t ca (.time x)
  | typ {t ca v} : ByKind W.E t ca → ((W.E t).kind = .other ∨ ∃ k e, (W.E t).kind = .map k e ∧ ¬ KeyType W.E k) →
      Blames W typ quote user M o (b! "json: unsupported type: " ++ typ t) t ca v
  | method {t ca m v rt x u id path} : Picks W.E t ca m → Receives W.E W.ptrTo t m v rt x u → M path m (argCtx o m) rt x [] = .err id →
      Blames W typ quote user M o (b! "json: error calling " ++ methodName m ++ b! " for type " ++ typ u ++ b! ": " ++ user id) t ca v
  | malformed {t ca v rt x u b path} : Picks W.E t ca .json → Receives W.E W.ptrTo t .json v rt x u → M path .json none rt x [] = .ok b →
      (∀ j, ¬ JsonText j b) → Blames W typ quote user M o (b! "json: error calling MarshalJSON for type " ++ typ u ++ b! ": json: invalid value") t ca v
  | nilKey {t ca kvs kv} : (W.E t).special = some .syncMap → kv ∈ kvs → kv.1 = .nil →
      Blames W typ quote user M o (b! "unsupported nil key in sync.Map") t ca (.smap kvs)
  | badKey {t ca kvs kv d v} : (W.E t).special = some .syncMap → kv ∈ kvs → kv.1 = .iface d v → ¬ KeyType W.E d →
      Blames W typ quote user M o (b! "unsupported key of type " ++ typ d ++ b! " in sync.Map") t ca (.smap kvs)

/-- The message of the error that a method failed with. -/
def causeText (user : Nat → Bytes) : UErr → Bytes
  | .user id => user id
  | .syntax => b! "json: invalid value"

/-- The two errors are of one sort and about the same: the same rejected option, the same name of a
type, both NaN or the same infinity, the same literal, the same method failing with the same
message. -/
inductive SameCause (typ : TId → Bytes) (user : Nat → Bytes) : ApiErr → ApiErr → Prop
  | option {e} : SameCause typ user (.invalidOption e) (.invalidOption e)
  | typ {t t'} : typ t = typ t' → SameCause typ user (.encoding (.unsupportedType t)) (.encoding (.unsupportedType t'))
  | nan {w b w' b'} : IsNaN w b → IsNaN w' b' → SameCause typ user (.encoding (.unsupportedValue w b)) (.encoding (.unsupportedValue w' b'))
  | posInf {w b w' b'} : IsBits w b (posInf w) → IsBits w' b' (posInf w') →
      SameCause typ user (.encoding (.unsupportedValue w b)) (.encoding (.unsupportedValue w' b'))
  | negInf {w b w' b'} : IsBits w b (negInf w) → IsBits w' b' (negInf w') →
      SameCause typ user (.encoding (.unsupportedValue w b)) (.encoding (.unsupportedValue w' b'))
  | number {s} : SameCause typ user (.encoding (.numberLiteral s)) (.encoding (.numberLiteral s))
  | time : SameCause typ user (.encoding .timeRange) (.encoding .timeRange)
  | nilKey : SameCause typ user (.encoding .syncMapNilKey) (.encoding .syncMapNilKey)
  | badKey {t t'} : typ t = typ t' → SameCause typ user (.encoding (.syncMapKey t)) (.encoding (.syncMapKey t'))
  | method {t t' m e e'} : typ t = typ t' → causeText user e = causeText user e' →
      SameCause typ user (.encoding (.marshaler t m e)) (.encoding (.marshaler t' m e'))

end Jettison.Spec
