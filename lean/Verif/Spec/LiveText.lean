import Verif.Spec.Live
import Verif.Spec.Doc
import Verif.Spec.Methods
import Verif.Spec.Select

/-!
# Specification: what data and methods must keep to while the data changes, for the text to be JSON

These are the conditions of `Fine` (Spec/Doc), asked at every moment of the variables there are.
-/

namespace Jettison.Spec
open Jettison Jettison.Model

/-- The bytes of the slice at a place. -/
def BytesIn (m : Mem) (p : Loc) (b : Bytes) : Prop :=
  ∃ d, d ≠ 0 ∧ m.at p = some (.slice d b.length) ∧ ∀ i c, b[i]? = some c → m.at (.heap (d + i)) = some (.int (.uint8 c))

/-- Keys of this type are string tokens: see `KeyFine` (findings 9 and 22). -/
structure KeyPlain (W : World) (o : EncOpts) (kt : TId) : Prop where
  num : (W.E kt).kind ≠ .string → (W.E kt).meths.text = false → ByKind W.E kt false ∨ ((W.E kt).special = some .duration ∧ o.durFmt ≠ .str)
  text : (W.E kt).kind ≠ .string → (W.E kt).meths.text = true →
    ((W.E kt).special = none ∧ Picks W.E kt false .text ∧ ¬ IsIface W.E kt) ∨ ((W.E kt).special = some .time ∧ bmHas o.flags .unixTime = false)

/-- At every moment, data and methods are as `Fine` asks:
- `append`, `json`, `text`: methods return JSON (with NoCompact without whitespace) and texts that may stand between quotes (finding 2);
- `time`, `number`, `raw`: the contents of variables of natively handled types;
- `key`, `skey`: the types of the keys of maps, and the keys a `sync.Map` delivers;
- `null`: no `omitnil` on fields with a `MarshalJSON` method (finding 1). -/
structure Decent {σ : Type} (W : World) (P : Around σ) (T : σ → Places) (o : EncOpts) : Prop where
  names : GoNames W.U.isLetter W.U.isDigit W.E
  valid : ValidContract W.jsonValid
  escaping : bmHas o.flags .noStringEscaping = false
  append : ∀ s k c t w dst b, k = .append ∨ k = .appendCtx → Called W.E (P.mem s) (T s) t w → (P.meth s k c t w dst).1 = .ok b →
    ∃ j out, b = dst ++ out ∧ CompactText j out
  json : ∀ s c t w b, bmHas o.flags .noCompact = true → Called W.E (P.mem s) (T s) t w → (P.meth s .json c t w []).1 = .ok b → ∃ j, CompactText j b
  text : ∀ s c t w b, Called W.E (P.mem s) (T s) t w → (P.meth s .text c t w []).1 = .ok b → ∃ c, unescape b = some c
  time : ∀ s t p x, (T s).val t p → (P.mem s).at p = some (.time x) → TimeFine W o x
  number : ∀ s t p x, bmHas o.flags .noNumberValidation = true → (T s).val t p → (W.E t).special = some .number → (P.mem s).at p = some (.str x) → x = [] ∨ IsNumber x
  raw : ∀ s t p b, (T s).val t p → (W.E t).special = some .rawMessage → BytesIn (P.mem s) p b →
    ∃ j, JsonText j b ∧ (bmHas o.flags .noCompact = true → CompactText j b)
  key : ∀ s t p k e, (T s).val t p → (W.E t).kind = .map k e → KeyPlain W o k
  skey : ∀ s path n t p x kt w, (T s).val t p → (W.E t).special = some .syncMap → P.sentry s path n p = some x → x.1 = some (kt, w) →
    KeyPlain W o kt ∧ (IsPtr W.E kt → w ≠ 0)
  null : ∀ s t p m, (T s).val t p → IsStruct W.E t → ChosenField W.U.isLetter W.U.isDigit W.E t m → HasOpt m.decl (b! "omitnil") → ¬ HasMarshalJSON W.E m.decl.typ

end Jettison.Spec
