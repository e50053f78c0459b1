import Verif.Spec.Flat
import Verif.Spec.Mapped
import Verif.Spec.Peel

/-!
# Specification: containers of interfaces

`Generic W o t v y`: the interface `y` holds the value `v` of type `t`, or, where `v` is a slice, array or map, one of interfaces that hold its
elements in this way, at any depth; where `v` is a pointer it may hold what it points to, and be nil if it is nil; and where
`v` is a struct, another that shows the same members, some of them in interfaces that hold their values in this way.
-/

namespace Jettison.Spec
open Jettison Jettison.Model

/-- Elements of slices and what pointers point to are addressable, values in interfaces are not: it does not matter for pointers, interfaces and values without methods on pointers. -/
def AddrFree (E : Env) (e : TId) (vs : List Val) : Prop := IsPtr E e ∨ IsIface E e ∨ ∀ x ∈ vs, NoPtrMeths E e x

/-- A member, and one of the same name that may hold its value in an interface; the `string` option does not apply to them, and they are not dropped for
what `MarshalJSON` returns. -/
structure MayHold (E : Env) (v v' : Val) (m m' : MField) : Prop where
  name : m'.name = m.name
  plain : ¬ (HasOpt m.decl (b! "string") ∧ BasicOrPtr E m.decl.typ)
  kept : ¬ (HasOpt m.decl (b! "omitnil") ∧ HasMarshalJSON E m.decl.typ)
  kept' : ¬ (HasOpt m'.decl (b! "omitnil") ∧ HasMarshalJSON E m'.decl.typ)
  any : DynType E m'.decl.typ
  there : (∃ x, FieldAt v m.path x) ∧ ∃ y, FieldAt v' m'.path y

/-- Two slice types, of elements of type `e` and of interfaces, without methods of their own. -/
def LooseSlice (E : Env) (t e t' : TId) : Prop :=
  (E t).kind = .slice e ∧ ByKind E t false ∧ ¬ ByteElem E e ∧ ByKind E t' false ∧ ∃ e', (E t').kind = .slice e' ∧ DynType E e'

def LooseArray (E : Env) (t e t' : TId) : Prop :=
  (∃ n, (E t).kind = .array n e) ∧ ByKind E t false ∧ ¬ ByteElem E e ∧ ByKind E t' false ∧ ∃ n e', (E t').kind = .array n e' ∧ DynType E e'

def LooseMap (E : Env) (t e t' : TId) : Prop :=
  ByKind E t false ∧ ByKind E t' false ∧ ∃ k e', (E t).kind = .map k e ∧ (E t').kind = .map k e' ∧ DynType E e'

inductive Generic (W : World) (o : EncOpts) : TId → Val → Val → Prop
  | same {t v y} : Boxed W.E t v y → (IsIface W.E t → DynType W.E t) → Generic W o t v y
  | held {t u v y} : DynType W.E t → Generic W o u v y → Generic W o t (.iface u v) y
  | ptrNil {t e} : (W.E t).kind = .ptr e → ByKind W.E t false → Generic W o t .nil .nil
  | ptr {t e v y} : (W.E t).kind = .ptr e → ByKind W.E t false → AddrFree W.E e [v] → (IsIface W.E e → DynType W.E e) → Generic W o e v y → Generic W o t (.ptr v) y
  | sliceNil {t e t'} : LooseSlice W.E t e t' → Generic W o t .nil (.iface t' .nil)
  | slice {t e t' vs ys} : LooseSlice W.E t e t' → AddrFree W.E e vs → (IsIface W.E e → DynType W.E e) → ys.length = vs.length →
      (∀ (i : Nat) x y, vs[i]? = some x → ys[i]? = some y → Generic W o e x y) → Generic W o t (.slice vs) (.iface t' (.slice ys))
  | array {t e t' vs ys} : LooseArray W.E t e t' → ys.length = vs.length →
      (∀ (i : Nat) x y, vs[i]? = some x → ys[i]? = some y → Generic W o e x y) → Generic W o t (.array vs) (.iface t' (.array ys))
  | mapNil {t e t'} : LooseMap W.E t e t' → Generic W o t .nil (.iface t' .nil)
  | map {t e t' kvs kvs'} : LooseMap W.E t e t' → kvs'.map Prod.fst = kvs.map Prod.fst →
      (∀ (i : Nat) x y, kvs[i]? = some x → kvs'[i]? = some y → Generic W o e x.2 y.2) → Generic W o t (.map kvs) (.iface t' (.map kvs'))
  | struct {t t' v v'} {shown shown' : List MField} (held : MField → Prop) : PlainStruct W.E t false → PlainStruct W.E t' false → ShownMembers W o t v shown →
      ShownMembers W o t' v' shown' → shown'.length = shown.length →
      (∀ (i : Nat) m m', shown[i]? = some m → shown'[i]? = some m' → ¬ held m → SameMember v v' m m') →
      (∀ (i : Nat) m m', shown[i]? = some m → shown'[i]? = some m' → held m → MayHold W.E v v' m m') →
      (∀ (i : Nat) m m' x y, shown[i]? = some m → shown'[i]? = some m' → held m → FieldAt v m.path x → FieldAt v' m'.path y → Generic W o m.decl.typ x y) →
      Generic W o t v (.iface t' v')

end Jettison.Spec
