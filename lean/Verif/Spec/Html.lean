import Verif.Spec.Faults

/-!
# Specification: what bytes a text may have

The README promises that with the default options strings are escaped so that the output can be
embedded in HTML, and that it is valid UTF-8. Some texts are not the encoder's own: it takes over
what a method returns, a `json.RawMessage`, a `json.Number` that is not validated, and the text of
a time with a layout of the caller. `Taken` are those copied as they are, `Relayed` those
compacted on the way.
-/

namespace Jettison.Spec
open Jettison Jettison.Model

/-- No `<`, `>` or `&`. -/
def NoMarkup (b : Bytes) : Prop := c! '<' ∉ b ∧ c! '>' ∉ b ∧ c! '&' ∉ b

instance (b : Bytes) : Decidable (NoMarkup b) := inferInstanceAs (Decidable (_ ∧ _))

/-- No U+2028 and U+2029, which end a line in JavaScript. -/
def NoSeparator (b : Bytes) : Prop := ¬ [0xE2, 0x80, 0xA8] <:+: b ∧ ¬ [0xE2, 0x80, 0xA9] <:+: b

/-- The text that is copied for a part. -/
inductive Taken (W : World) (M : MethV) (o : EncOpts) : TId → Bool → Val → Bytes → Prop
  | method {t ca m v rt x u b path} : (W.E t).special = none → Picks W.E t ca m → m ≠ .json → Receives W.E W.ptrTo t m v rt x u →
      M path m (argCtx o m) rt x [] = .ok b → Taken W M o t ca v b
  | json {t ca v rt x u b path} : (W.E t).special = none → Picks W.E t ca .json → Receives W.E W.ptrTo t .json v rt x u →
      M path .json none rt x [] = .ok b → bmHas o.flags .noCompact = true → Taken W M o t ca v b
  | raw {t ca vs b} : (W.E t).special = some .rawMessage → AsBytes vs b → bmHas o.flags .noCompact = true → Taken W M o t ca (.slice vs) b
  | number {t ca s} : (W.E t).special = some .number → bmHas o.flags .noNumberValidation = true → Taken W M o t ca (.str s) s
  | layout {t ca x l} : (W.E t).special = some .time → bmHas o.flags .unixTime = false → o.layout = .other l →
      Taken W M o t ca (.time x) (W.appendFormat x l)

/-- The JSON text that is compacted for a part. -/
inductive Relayed (W : World) (M : MethV) (o : EncOpts) : TId → Bool → Val → Bytes → Prop
  | json {t ca v rt x u b path} : (W.E t).special = none → Picks W.E t ca .json → Receives W.E W.ptrTo t .json v rt x u →
      M path .json none rt x [] = .ok b → bmHas o.flags .noCompact = false → Relayed W M o t ca v b
  | raw {t ca vs b} : (W.E t).special = some .rawMessage → AsBytes vs b → bmHas o.flags .noCompact = false → Relayed W M o t ca (.slice vs) b

end Jettison.Spec
