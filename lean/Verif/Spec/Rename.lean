import Verif.Spec.Writes

/-!
# Specification: types that differ in their names

`Renaming W M R`: related types have the same form, with related components, and the same methods, which
answer alike. Their names, and those of the types they are made of, may differ.
-/

namespace Jettison.Spec
open Jettison Jettison.Model

/-- The same kinds, with related components; of structs the fields are compared apart. -/
inductive KindAlike (R : TId → TId → Prop) : Kind → Kind → Prop
  | bool : KindAlike R .bool .bool
  | int {k} : KindAlike R (.int k) (.int k)
  | float {w} : KindAlike R (.float w) (.float w)
  | string : KindAlike R .string .string
  | iface {n n'} : KindAlike R (.iface n) (.iface n')
  | struct {fs fs'} : KindAlike R (.struct fs) (.struct fs')
  | map {k k' e e'} : R k k' → R e e' → KindAlike R (.map k e) (.map k' e')
  | slice {e e'} : R e e' → KindAlike R (.slice e) (.slice e')
  | array {n e e'} : R e e' → KindAlike R (.array n e) (.array n e')
  | ptr {e e'} : R e e' → KindAlike R (.ptr e) (.ptr e')
  | other : KindAlike R .other .other

/-- Values that differ in the types that interfaces hold, which are related. -/
inductive SameVal (R : TId → TId → Prop) : Val → Val → Prop
  | bool {b} : SameVal R (.bool b) (.bool b)
  | int {x} : SameVal R (.int x) (.int x)
  | float {w x} : SameVal R (.float w x) (.float w x)
  | str {s} : SameVal R (.str s) (.str s)
  | time {x} : SameVal R (.time x) (.time x)
  | nil : SameVal R .nil .nil
  | «opaque» : SameVal R .opaque .opaque
  | ptr {v v'} : SameVal R v v' → SameVal R (.ptr v) (.ptr v')
  | slice {vs vs'} : vs'.length = vs.length → (∀ (i : Nat) x y, vs[i]? = some x → vs'[i]? = some y → SameVal R x y) → SameVal R (.slice vs) (.slice vs')
  | array {vs vs'} : vs'.length = vs.length → (∀ (i : Nat) x y, vs[i]? = some x → vs'[i]? = some y → SameVal R x y) → SameVal R (.array vs) (.array vs')
  | struct {vs vs'} : vs'.length = vs.length → (∀ (i : Nat) x y, vs[i]? = some x → vs'[i]? = some y → SameVal R x y) → SameVal R (.struct vs) (.struct vs')
  | map {kvs kvs'} : kvs'.length = kvs.length → (∀ (i : Nat) x y, kvs[i]? = some x → kvs'[i]? = some y → SameVal R x.1 y.1) →
      (∀ (i : Nat) x y, kvs[i]? = some x → kvs'[i]? = some y → SameVal R x.2 y.2) → SameVal R (.map kvs) (.map kvs')
  | smap {kvs kvs'} : kvs'.length = kvs.length → (∀ (i : Nat) x y, kvs[i]? = some x → kvs'[i]? = some y → SameVal R x.1 y.1) →
      (∀ (i : Nat) x y, kvs[i]? = some x → kvs'[i]? = some y → SameVal R x.2 y.2) → SameVal R (.smap kvs) (.smap kvs')
  | iface {d d' x x'} : R d d' → SameVal R x x' → SameVal R (.iface d x) (.iface d' x')

/-- Members with the same place, name and tag, of related types. -/
structure Twins (R : TId → TId → Prop) (m m' : MField) : Prop where
  path : m'.path = m.path
  name : m'.name = m.name
  tag : m'.decl.tag = m.decl.tag
  typ : R m.decl.typ m'.decl.typ

/-- Related types are the same but for their names. Of pointers it matters if they have a name (the `string` option has no effect on them then). -/
structure Renaming (W : World) (M : MethV) (R : TId → TId → Prop) : Prop where
  kind : ∀ t t', R t t' → KindAlike R (W.E t).kind (W.E t').kind
  special : ∀ t t', R t t' → (W.E t').special = (W.E t).special
  meths : ∀ t t', R t t' → (W.E t').meths = (W.E t).meths
  pmeths : ∀ t t', R t t' → (W.E t').pmeths = (W.E t).pmeths
  ptrName : ∀ t t', R t t' → IsPtr W.E t → ((W.E t').name = [] ↔ (W.E t).name = [])
  members : ∀ t t', R t t' → IsStruct W.E t → ∀ m, ChosenField W.U.isLetter W.U.isDigit W.E t m →
    ∃ m', ChosenField W.U.isLetter W.U.isDigit W.E t' m' ∧ Twins R m m'
  members' : ∀ t t', R t t' → IsStruct W.E t → ∀ m', ChosenField W.U.isLetter W.U.isDigit W.E t' m' →
    ∃ m, ChosenField W.U.isLetter W.U.isDigit W.E t m ∧ Twins R m m'
  ptrTo : ∀ t t', R t t' → R (W.ptrTo t) (W.ptrTo t')
  answers : ∀ path m ctx t t' v v' dst, R t t' → SameVal R v v' → M path m ctx t' v' dst = M path m ctx t v dst

/-- The same declarations of fields, of related types. Embedded structs whose fields are promoted have the names of their types, which may differ. -/
structure SameDecls (letter digit : Nat → Bool) (E : Env) (R : TId → TId → Prop) (fs fs' : List FieldDef) : Prop where
  length : fs'.length = fs.length
  name : ∀ (i : Nat) f f', fs[i]? = some f → fs'[i]? = some f' → (∀ v ptr, ¬ Promotes letter digit E f v ptr) → f'.name = f.name
  exported : ∀ (i : Nat) f f', fs[i]? = some f → fs'[i]? = some f' → f'.exported = f.exported
  anonymous : ∀ (i : Nat) f f', fs[i]? = some f → fs'[i]? = some f' → f'.anonymous = f.anonymous
  tag : ∀ (i : Nat) f f', fs[i]? = some f → fs'[i]? = some f' → f'.tag = f.tag
  typ : ∀ (i : Nat) f f', fs[i]? = some f → fs'[i]? = some f' → R f.typ f'.typ

/-- Related types have related components and declarations. -/
structure Declared (letter digit : Nat → Bool) (E : Env) (R : TId → TId → Prop) : Prop where
  kind : ∀ t t', R t t' → KindAlike R (E t).kind (E t').kind
  ptrName : ∀ t t', R t t' → IsPtr E t → ((E t').name = [] ↔ (E t).name = [])
  decls : ∀ t t' fs fs', R t t' → HasFields E t fs → HasFields E t' fs' → SameDecls letter digit E R fs fs'

/-- Structs embedded in the one are the same type where those embedded in the other are. -/
def SameSharing (letter digit : Nat → Bool) (E : Env) (R : TId → TId → Prop) (t t' : TId) : Prop :=
  ∀ p u q p2 u2 q2 r w s r2 w2 s2, Reaches letter digit E t p u q → Reaches letter digit E t p2 u2 q2 → Reaches letter digit E t' r w s →
    Reaches letter digit E t' r2 w2 s2 → R u w → R u2 w2 → (u = u2 ↔ w = w2)

end Jettison.Spec
