import Verif.Spec.Select

/-!
# Specification: types on which preparing a call does not end

A type that is encoded by its kind is prepared by preparing its element, its target or its key. Structs
are prepared once and interfaces when their value is known, so that only a chain of other types can go on
for ever: `type T []T`, `type M map[string]M`.
-/

namespace Jettison.Spec
open Jettison Jettison.Model

/-- To prepare a type, at a place that is addressable or not, the other is prepared. -/
inductive Descends (E : Env) : TId × Bool → TId × Bool → Prop
  | ptr {t ca e} : ByKind E t ca → (E t).kind = .ptr e → Descends E (t, ca) (e, true)
  | slice {t ca e} : ByKind E t ca → (E t).kind = .slice e → ¬ ByteElem E e → Descends E (t, ca) (e, true)
  | array {t ca n e} : ByKind E t ca → (E t).kind = .array n e → Descends E (t, ca) (e, ca)
  | key {t ca k e} : ByKind E t ca → (E t).kind = .map k e → KeyType E k → (E k).kind ≠ .string → Descends E (t, ca) (k, false)
  | elem {t ca k e} : ByKind E t ca → (E t).kind = .map k e → KeyType E k → Descends E (t, ca) (e, false)

/-- There is an endless chain of types to be prepared. -/
def Endless (E : Env) (t : TId) (ca : Bool) : Prop := ∃ f : Nat → TId × Bool, f 0 = (t, ca) ∧ ∀ n, Descends E (f n) (f (n + 1))

end Jettison.Spec
