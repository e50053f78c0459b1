import Verif.Spec.Spoils

/-!
# Specification: the same data, spelled differently

Two JSON texts hold the same data if they are of trees that differ only in the order of the members
of objects. Trees are those of Spec/Json: the contents of strings are compared after their escapes
are resolved, numbers as they are written.
-/

namespace Jettison.Spec
open Jettison Jettison.Model

/-- Trees that differ only in the order of the members of objects. -/
inductive SameData : Json → Json → Prop
  | same (j : Json) : SameData j j
  | arr {l : List (Json × Json)} : (∀ x ∈ l, SameData x.1 x.2) → SameData (.arr (l.map fun x => x.1)) (.arr (l.map fun x => x.2))
  | obj {l : List (Bytes × Json × Json)} {ms ms' : List (Bytes × Json)} : ms.Perm (l.map fun x => (x.1, x.2.1)) → ms'.Perm (l.map fun x => (x.1, x.2.2)) →
      (∀ x ∈ l, SameData x.2.1 x.2.2) → SameData (.obj ms) (.obj ms')

/-- Both texts are JSON and hold the same data. -/
def SameTree (b b' : Bytes) : Prop := ∃ j j', JsonText j b ∧ JsonText j' b' ∧ SameData j j'

/-- Options that are about how data is spelled, or what is checked, and not about the data. -/
def SpellingFlag (f : Flag) : Prop := f = .noHTMLEscaping ∨ f = .noCompact ∨ f = .unsortedMap ∨ f = .noNumberValidation

/-- The options are alike but for those about spelling. -/
structure SpellAlike (o o' : EncOpts) : Prop where
  ctx : o.ctx = o'.ctx
  time : o.timeLayout = o'.timeLayout
  dur : o.durationFmt = o'.durationFmt
  allow : o.allowList = o'.allowList
  deny : o.denyList = o'.denyList
  flags : ∀ f, ¬ SpellingFlag f → bmHas o.flags f = bmHas o'.flags f

/-- Times and durations are written in the same form. -/
structure SameTimes (o o' : EncOpts) : Prop where
  unix : bmHas o.flags .unixTime = bmHas o'.flags .unixTime
  layout : o.layout = o'.layout
  dur : o.durFmt = o'.durFmt

/-- What the findings of DESIGN.md leave out: a `json.RawMessage` is JSON (finding 7), keys of maps are not
odd (findings 9, 21 and 22) and fields with the `omitnil` option have no `MarshalJSON` method (finding 1). -/
structure Settled (W : World) (o : EncOpts) (t : TId) (v : Val) : Prop where
  raw : ∀ t' vs x, Within W.E t v t' (.slice vs) → (W.E t').special = some .rawMessage → AsBytes vs x → ∃ j, JsonText j x
  key : ∀ t' k e kvs kv, Within W.E t v t' (.map kvs) → (W.E t').kind = .map k e → (W.E k).kind ≠ .string → kv ∈ kvs → (IsPtr W.E k → kv.1 ≠ .nil) →
    ¬ OddKey W o k false kv.1
  skey : ∀ t' kvs kv d x, Within W.E t v t' (.smap kvs) → kv ∈ kvs → kv.1 = .iface d x → (W.E d).kind ≠ .string →
    ¬ OddKey W o d (isPtrK (W.E d).kind) x
  null : ∀ t' v' m, Within W.E t v t' v' → IsStruct W.E t' → ChosenField W.U.isLetter W.U.isDigit W.E t' m → HasOpt m.decl (b! "omitnil") → ¬ HasMarshalJSON W.E m.decl.typ

end Jettison.Spec
