import Verif.Spec.Select

/-!
# Specification: values that show the same

`Shows W o t ca v v'`: the values of the type `t` differ at most in what is no part of
the text: fields which are no members of their struct (not exported, shadowed, tagged
`-`), members left out of both (hidden by a list, empty, nil, behind a nil pointer).
A type with a method, which may look at anything, is not looked into.
-/

namespace Jettison.Spec
open Jettison.Model

/-- The two values differ at most in what is not encoded. `ca`: they are addressable. -/
inductive Shows (W : World) (o : EncOpts) : TId → Bool → Val → Val → Prop
  | refl {t ca v} : Shows W o t ca v v
  | ptr {t ca e v v'} : ByKind W.E t ca → (W.E t).kind = .ptr e → Shows W o e true v v' → Shows W o t ca (.ptr v) (.ptr v')
  | slice {t ca e vs vs'} : ByKind W.E t ca → (W.E t).kind = .slice e → vs.length = vs'.length →
      (∀ (i : Nat) x x', vs[i]? = some x → vs'[i]? = some x' → Shows W o e true x x') → Shows W o t ca (.slice vs) (.slice vs')
  | array {t ca n e vs vs'} : ByKind W.E t ca → (W.E t).kind = .array n e → vs.length = vs'.length →
      (∀ (i : Nat) x x', vs[i]? = some x → vs'[i]? = some x' → Shows W o e ca x x') → Shows W o t ca (.array vs) (.array vs')
  | map {t ca k e kvs kvs'} : ByKind W.E t ca → (W.E t).kind = .map k e → kvs.length = kvs'.length →
      (∀ (i : Nat) x x', kvs[i]? = some x → kvs'[i]? = some x' → x.1 = x'.1) →
      (∀ (i : Nat) x x', kvs[i]? = some x → kvs'[i]? = some x' → Shows W o e false x.2 x'.2) → Shows W o t ca (.map kvs) (.map kvs')
  | iface {t ca n d v v'} : ByKind W.E t ca → (W.E t).kind = .iface n → Shows W o d (isPtrK (W.E d).kind) v v' →
      Shows W o t ca (.iface d v) (.iface d v')
  | smap {t ca kvs kvs'} : (W.E t).special = some .syncMap → kvs.length = kvs'.length →
      (∀ (i : Nat) x x', kvs[i]? = some x → kvs'[i]? = some x' → x.1 = x'.1) →
      (∀ (i : Nat) x x', kvs[i]? = some x → kvs'[i]? = some x' → x.2 = x'.2 ∨ ∃ d y y', x.2 = .iface d y ∧ x'.2 = .iface d y') →
      (∀ (i : Nat) x x' d y y', kvs[i]? = some x → kvs'[i]? = some x' → x.2 = .iface d y → x'.2 = .iface d y' →
        Shows W o d (isPtrK (W.E d).kind) y y') → Shows W o t ca (.smap kvs) (.smap kvs')
  | struct {t ca v v'} : ByKind W.E t ca → IsStruct W.E t →
      (∀ m, ChosenField W.U.isLetter W.U.isDigit W.E t m → (LeftOut o v m ↔ LeftOut o v' m)) →
      (∀ m x x', ChosenField W.U.isLetter W.U.isDigit W.E t m → ¬ LeftOut o v m → FieldAt v m.path x → FieldAt v' m.path x' →
        Shows W o m.decl.typ ca x x') → Shows W o t ca v v'

end Jettison.Spec
