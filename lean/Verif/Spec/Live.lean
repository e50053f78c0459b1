import Verif.Spec.Safe
import Verif.Spec.Maps
import Verif.Model.Live

/-!
# Specification: memory whose places have types, while it changes

`Repr` says that memory holds a finite value. While methods change the data there is no such value,
but Go still guarantees that a variable holds data of its type: `Sane E m T` says so of the memory
`m` and the variables `T`, of data the library can read (as `Repr` does). Data with cycles is included.
-/

namespace Jettison.Spec
open Jettison Jettison.Model

/-- The variables there are, with their types, and the map objects, with the types of their keys and
elements. `.tmp w` is the value of an interface that is kept in its data word. -/
structure Places where
  val : TId → Loc → Prop
  map : TId → TId → Addr → Prop

/-- Variables do not disappear and do not change their types. -/
def Places.Le (T T' : Places) : Prop := (∀ t p, T.val t p → T'.val t p) ∧ ∀ k e a, T.map k e a → T'.map k e a

/-- An interface value that holds nothing or a value of its dynamic type. -/
inductive Places.Held (E : Env) (T : Places) : Eface → Prop
  | nil : Places.Held E T none
  | direct {t w} : Inlined E t → T.val t (.tmp w) → Places.Held E T (some (t, w))
  | indirect {t w} : Pointed E t w → T.val t (.heap w) → Places.Held E T (some (t, w))

/-- The variable at the location holds data of its type, and what the data leads to are variables of
the right types. -/
inductive Laid (E : Env) (m : Mem) (T : Places) : TId → Loc → Prop
  | bool {t p b} : (E t).kind = .bool → m.at p = some (.bool b) → Laid E m T t p
  | int {t p v} : (E t).kind = .int v.kind → m.at p = some (.int v) → Laid E m T t p
  | float {t p w b} : (E t).kind = .float w → m.at p = some (.float w b) → Laid E m T t p
  | str {t p b} : (E t).kind = .string → m.at p = some (.str b) → Laid E m T t p
  | time {t p x} : (E t).special = some .time → m.at p = some (.time x) → Laid E m T t p
  | smap {t p es} : (E t).special = some .syncMap → m.at p = some (.smap es) →
      (∀ x ∈ es, T.Held E x.1 ∧ T.Held E x.2) → Laid E m T t p
  | ptr {t p e a} : (E t).kind = .ptr e → m.at p = some (.word a) → (a ≠ 0 → T.val e (.heap a)) → Laid E m T t p
  | map {t p k e a} : (E t).kind = .map k e → Bare E t → m.at p = some (.word a) → (a ≠ 0 → T.map k e a) → Laid E m T t p
  | nilSlice {t p e} : (E t).kind = .slice e → m.at p = some (.slice 0 0) → Laid E m T t p
  | slice {t p e d n} : (E t).kind = .slice e → m.at p = some (.slice d n) → d ≠ 0 →
      (∀ i, i < n → T.val e (.heap (d + i * (E e).size))) → Laid E m T t p
  | array {t p n e} : (E t).kind = .array n e → Bare E t → (∀ i, i < n → T.val e (p.add (i * (E e).size))) → Laid E m T t p
  | struct {t p fs} : (E t).kind = .struct fs → (E t).special = none → Bare E t → (∀ f ∈ fs, T.val f.typ (p.add f.offset)) → Laid E m T t p
  | eface {t p x} : (E t).kind = .iface 0 → m.at p = some (.eface x) → T.Held E x → Laid E m T t p
  | iface {t p n x} : (E t).kind = .iface (n + 1) → m.at p = some (.iface x) → (x ≠ none → MethSet.any (E t).meths) → T.Held E x → Laid E m T t p
  | opaque {t p} : (E t).kind = .other → Bare E t → Laid E m T t p

/-- Every variable holds data of its type, every map entries of its types. -/
structure Sane (E : Env) (m : Mem) (T : Places) : Prop where
  val : ∀ t p, T.val t p → Laid E m T t p
  map : ∀ k e a, T.map k e a → ∃ es, m.at (.heap a) = some (.hmap es) ∧ ∀ x ∈ es, T.val k (.heap x.1) ∧ T.val e (.heap x.2)

/-- The receiver a method is called with is a value of its type; of a `Blank` one nothing is read. -/
inductive Called (E : Env) (m : Mem) (T : Places) : TId → Loc → Prop
  | direct {t w} : Direct E t → Laid E m T t (.tmp w) → Called E m T t (.heap w)
  | indirect {t p} : ¬ Direct E t → Laid E m T t p → Called E m T t p
  | blank {t p} : Blank E t → Laid E m T t p → Called E m T t p

/-- Methods that are Go code: whatever they change, variables hold data of their types. Also the
iterators of the runtime deliver entries of the types of their maps. -/
structure Careful {σ : Type} (E : Env) (P : Around σ) (T : σ → Places) : Prop where
  sane : ∀ s, Sane E (P.mem s) (T s)
  meth : ∀ s k c t w dst, Called E (P.mem s) (T s) t w → (T s).Le (T (P.meth s k c t w dst).2)
  entry : ∀ s path n k e a x, (T s).map k e a → P.entry s path n a = some x → (T s).val k (.heap x.1) ∧ (T s).val e (.heap x.2)
  sentry : ∀ s path n t p x, (T s).val t p → (E t).special = some .syncMap → P.sentry s path n p = some x →
    (T s).Held E x.1 ∧ (T s).Held E x.2

/-- What is asked of the program and of the standard library: Go types, without the
structs of finding 15. -/
structure Grounds (W : World) : Prop where
  types : GoTypes W.E W.ptrTo
  apart : ∀ t, RoutesApart W.U.isLetter W.U.isDigit W.grow W.E t
  nest : NestBound W.E W.tfuel
  tab : TablesOk W.U.isLetter W.U.isDigit
  sort : SortOk W.sort

/-- The methods do as they like with their memory, except that the part `H.mem`, which holds the value
encoded, stays as it is; what they answer depends on the value of the receiver only; and iterators
deliver the entries of the maps. -/
structure Kept {σ : Type} (W : World) (H : Heap) (M : MethV) (P : Around σ) : Prop where
  mem : ∀ s a c, H.mem a = some c → P.mem s a = some c
  meth : ∀ s path k ctx t w v dst, Recv W.E H.mem t w v → (P.meth s k ctx t w dst).1 = M path k ctx t v dst
  entry : ∀ s path n a es, H.mem a = some (.hmap es) → P.entry s path n a = (W.visit path es)[n]?
  sentry : ∀ s path n p es, H.mem.at p = some (.smap es) → P.sentry s path n p = (W.visit path es)[n]?

/-- No map in memory has `lim` entries. -/
def Fewer (lim : Nat) (m : Mem) : Prop :=
  (∀ a es, m a = some (.hmap es) → es.length < lim) ∧ ∀ a es, m a = some (.smap es) → es.length < lim

end Jettison.Spec
