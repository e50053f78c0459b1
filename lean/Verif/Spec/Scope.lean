import Verif.Spec.Part
import Verif.Spec.Safe
import Verif.Model.Options

/-!
# Specification: what each option is about

`Touched E x t v`: the option `x` is about values like `v` of type `t`. From the
documentation of the options (/repo/options.go:109-234).
-/

namespace Jettison.Spec
open Jettison Jettison.Model

/-- A string, or bytes that can be encoded as one. -/
def StringLike (E : Env) (t : TId) : Prop :=
  (E t).kind = .string ∨ (∃ e, (E t).kind = .slice e ∧ (E e).kind = .int .uint8) ∨
    ∃ n e, (E t).kind = .array n e ∧ (E e).kind = .int .uint8

/-- The type, or a pointer to it, has the method. -/
def Customized (E : Env) (t : TId) (m : MethKind) : Prop := MethSet.Has (E t).meths m ∨ MethSet.Has (E t).pmeths m

/-- The values each option is about. -/
def Touched (E : Env) : Opt → TId → Val → Prop
  | .flag .unixTime, t, _ => (E t).special = some .time
  | .flag .unsortedMap, t, v => (∃ kvs, v = .map kvs) ∨ (E t).special = some .syncMap
  | .flag .rawByteSlice, t, v => v ≠ .nil ∧ ∃ e, (E t).kind = .slice e ∧ (E e).kind = .int .uint8
  | .flag .byteArrayAsString, t, _ => ∃ n e, (E t).kind = .array n e ∧ (E e).kind = .int .uint8
  | .flag .nilMapEmpty, t, v => v = .nil ∧ ∃ k e, (E t).kind = .map k e
  | .flag .nilSliceEmpty, t, v => v = .nil ∧ ∃ e, (E t).kind = .slice e
  | .flag .noStringEscaping, t, _ => StringLike E t
  | .flag .noHTMLEscaping, t, _ => StringLike E t ∨ (∃ fs, (E t).kind = .struct fs) ∨ (E t).special = some .rawMessage ∨ Customized E t .json
  | .flag .noUTF8Coercion, t, _ => StringLike E t
  | .flag .noCompact, t, _ => (E t).special = some .rawMessage ∨ Customized E t .json
  | .flag .noNumberValidation, t, _ => (E t).special = some .number
  | .timeLayout _, t, _ => (E t).special = some .time
  | .durationFormat _, t, _ => (E t).special = some .duration
  | .withContext _, t, _ => Customized E t .appendCtx
  | .allowList _, t, _ => ∃ fs, (E t).kind = .struct fs
  | .denyList _, t, _ => ∃ fs, (E t).kind = .struct fs

end Jettison.Spec
