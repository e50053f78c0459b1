import Verif.Spec.Select
import Verif.Spec.Part

/-! # Specification: chains of pointers and interfaces -/

namespace Jettison.Spec
open Jettison Jettison.Model

/-- Following non-nil pointers and interfaces without methods leads from the value `v` of type `t`
to the value `v0` of type `t0`. -/
inductive Peel (E : Env) : TId → Val → TId → Val → Prop
  | refl {t v} : Peel E t v t v
  | ptr {t e x t0 v0} : (E t).kind = .ptr e → ByKind E t true → Peel E e x t0 v0 → Peel E t (.ptr x) t0 v0
  | iface {t k d x t0 v0} : (E t).kind = .iface k → ByKind E t true → Peel E d x t0 v0 → Peel E t (.iface d x) t0 v0

/-- The types of the value and its parts have no methods that need an address. -/
def NoPtrMeths (E : Env) (t : TId) (v : Val) : Prop := ∀ t' v', Within E t v t' v' → (E t').pmeths = (E t').meths

end Jettison.Spec
