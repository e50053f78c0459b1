import Verif.Spec.Faults

/-!
# Specification: settings that are no stricter

`NoStricter o o'`: whatever the settings `o'` check, or could fail on, the settings `o` do too. The settings
not mentioned (the escaping of strings, the layout of times, the spelling of nil and bytes) are free.
-/

namespace Jettison.Spec
open Jettison Jettison.Model

/-- The second settings give no reason for a failure that the first do not give. -/
structure NoStricter (o o' : EncOpts) : Prop where
  ctx : o.ctx = o'.ctx
  number : bmHas o.flags .noNumberValidation = true → bmHas o'.flags .noNumberValidation = true
  compact : bmHas o.flags .noCompact = true → bmHas o'.flags .noCompact = true
  sorted : bmHas o.flags .unsortedMap = true → bmHas o'.flags .unsortedMap = true
  bytes : bmHas o.flags .byteArrayAsString = true → bmHas o'.flags .byteArrayAsString = true
  unix : bmHas o'.flags .unixTime = true → bmHas o.flags .unixTime = true
  seconds : o'.durFmt = .seconds → o.durFmt = .seconds
  minutes : o'.durFmt = .minutes → o.durFmt = .minutes
  lists : ∀ n, Hidden o.allowList o.denyList n → Hidden o'.allowList o'.denyList n

/-- Options that can be added to any others: every flag but `UnixTime`, every layout of times but the empty
one, and the formats of durations that are no fraction. -/
inductive Mild : Option Opt → Prop
  | none : Mild none
  | flag {f} : f ≠ .unixTime → Mild (some (.flag f))
  | layout {l} : l ≠ [] → Mild (some (.timeLayout l))
  | duration {d : Int} : d = 0 ∨ d = 3 ∨ d = 4 ∨ d = 5 → Mild (some (.durationFormat d))

end Jettison.Spec
