import Verif.Spec.Mapped
import Verif.Spec.Doc

/-!
# Specification: a value as generic data

`Untyped W o t ca v y`: the interface `y` holds `v` as generic data, with a `map[string]interface{}` for a struct, a `[]interface{}` (or
an array) for a slice or an array, a map of interfaces for a map, and what a pointer points to for a pointer, at any depth. Parts may
also be held as they are.
-/

namespace Jettison.Spec
open Jettison Jettison.Model

/-- Types whose values are encoded the same whether they are addressable or not: natively handled types; basic types and slices without methods. -/
def FlagFree (E : Env) (t : TId) : Prop :=
  (E t).special ≠ none ∨ (ByKind E t true ∧ (isBasicK (E t).kind = true ∨ ∃ e, (E t).kind = .slice e))

/-- `w` is a slice or an array of the interfaces `ys`. -/
def AnyList (E : Env) (t : TId) (w : Val) (ys : List Val) : Prop :=
  ByKind E t false ∧ ∃ e, DynType E e ∧ (((E t).kind = .slice e ∧ w = .slice ys) ∨ ∃ n, (E t).kind = .array n e ∧ w = .array ys)

/-- A map type with keys of type `k` and interfaces. -/
def AnyMapOf (E : Env) (k t : TId) : Prop := ByKind E t false ∧ ∃ e, (E t).kind = .map k e ∧ DynType E e

/-- The members shown of a struct, in any order. -/
def ShownOf (W : World) (o : EncOpts) (t : TId) (v : Val) (shown : List MField) : Prop :=
  shown.Nodup ∧ ∃ l, MembersOf W.U.isLetter W.U.isDigit W.E t l ∧ ∀ m, m ∈ shown ↔ m ∈ l ∧ ¬ LeftOut o v m

/-- A member that can be an entry of a map: the `string` option does not apply to it, its name stays the same as a key, and it has a value. -/
def AsEntry (W : World) (o : EncOpts) (v : Val) (m : MField) : Prop :=
  ¬ (HasOpt m.decl (b! "string") ∧ BasicOrPtr W.E m.decl.typ) ∧ StrContent o m.name m.name ∧ ∃ x, FieldAt v m.path x

inductive Untyped (W : World) (o : EncOpts) : TId → Bool → Val → Val → Prop
  | same {t ca v} : ¬ IsIface W.E t → ca = isPtrK (W.E t).kind ∨ FlagFree W.E t → Untyped W o t ca v (.iface t v)
  | heldNil {t ca} : DynType W.E t → Untyped W o t ca .nil .nil
  | held {t ca u v y} : DynType W.E t → Untyped W o u (isPtrK (W.E u).kind) v y → Untyped W o t ca (.iface u v) y
  | ptrNil {t ca e} : (W.E t).kind = .ptr e → ByKind W.E t ca → Untyped W o t ca .nil .nil
  | ptr {t ca e v y} : (W.E t).kind = .ptr e → ByKind W.E t ca → Untyped W o e true v y → Untyped W o t ca (.ptr v) y
  | sliceNil {t ca e t' e'} : (W.E t).kind = .slice e → ByKind W.E t ca → ¬ ByteElem W.E e → (W.E t').kind = .slice e' → ByKind W.E t' false → DynType W.E e' →
      Untyped W o t ca .nil (.iface t' .nil)
  | slice {t ca e t' vs w ys} : (W.E t).kind = .slice e → ByKind W.E t ca → ¬ ByteElem W.E e → AnyList W.E t' w ys → ys.length = vs.length →
      (∀ (i : Nat) x y, vs[i]? = some x → ys[i]? = some y → Untyped W o e true x y) → Untyped W o t ca (.slice vs) (.iface t' w)
  | array {t ca n e t' vs w ys} : (W.E t).kind = .array n e → ByKind W.E t ca → ¬ ByteElem W.E e → AnyList W.E t' w ys → ys.length = vs.length →
      (∀ (i : Nat) x y, vs[i]? = some x → ys[i]? = some y → Untyped W o e ca x y) → Untyped W o t ca (.array vs) (.iface t' w)
  | mapNil {t ca k e t'} : (W.E t).kind = .map k e → ByKind W.E t ca → AnyMapOf W.E k t' → Untyped W o t ca .nil (.iface t' .nil)
  | map {t ca k e t' kvs kvs'} : (W.E t).kind = .map k e → ByKind W.E t ca → AnyMapOf W.E k t' → kvs'.map Prod.fst = kvs.map Prod.fst →
      (∀ (i : Nat) x y, kvs[i]? = some x → kvs'[i]? = some y → Untyped W o e false x.2 y.2) → Untyped W o t ca (.map kvs) (.iface t' (.map kvs'))
  | struct {t ca t' v kvs} {shown : List MField} : IsStruct W.E t → ByKind W.E t ca → AnyMap W t' → ShownOf W o t v shown → (∀ m ∈ shown, AsEntry W o v m) →
      kvs.length = shown.length → (∀ (i : Nat) m kv, shown[i]? = some m → kvs[i]? = some kv → kv.1 = .str m.name) →
      (∀ (i : Nat) m kv x, shown[i]? = some m → kvs[i]? = some kv → FieldAt v m.path x → Untyped W o m.decl.typ ca x kv.2) →
      Untyped W o t ca v (.iface t' (.map kvs))

end Jettison.Spec
