import Verif.Model.Options

/-!
# Specification: what a list of options asks for

Reading of the option documentation (/repo/options.go): flags are on when asked
for at least once, every other setting is the last one given.
-/

namespace Jettison.Spec
open Jettison.Model (Opt Flag Ctx)

/-- The last `some` among the results of `f`, or `d`. -/
def lastSetting {α : Type} (f : Opt → Option α) (d : α) (l : List (Option Opt)) : α :=
  (l.reverse.findSome? fun x => x.bind f).getD d

def settingLayout : Opt → Option Bytes | .timeLayout l => some l | _ => none
def settingDuration : Opt → Option Int | .durationFormat f => some f | _ => none
def settingContext : Opt → Option (Option Ctx) | .withContext c => some c | _ => none
def settingAllow : Opt → Option (Option (List Bytes)) | .allowList l => some (some l) | _ => none
def settingDeny : Opt → Option (Option (List Bytes)) | .denyList l => some (some l) | _ => none

/-- The field is hidden by the allow and deny lists. -/
def Hidden (allow deny : Option (List Bytes)) (name : Bytes) : Prop :=
  (∃ d, deny = some d ∧ name ∈ d) ∨ (∃ a, allow = some a ∧ name ∉ a)

end Jettison.Spec
