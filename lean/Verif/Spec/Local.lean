import Verif.Spec.Safe
import Verif.Spec.Finite

/-!
# Specification: the part of a program that a value involves

A `Family` is a set of types that has the components of its members and the pointers to them. The
values of a program that are made of the types of a family do not involve the other types.
-/

namespace Jettison.Spec
open Jettison.Model

/-- The set has, with a type, its element, key and field types and the pointer to it. -/
structure Family (E : Env) (ptrTo : TId → TId) (S : TId → Prop) : Prop where
  parts : ∀ t u, S t → PartOf E u t → S u
  fields : ∀ t fs sf, S t → HasFields E t fs → sf ∈ fs → S sf.typ
  ptrTo : ∀ t, S t → S (ptrTo t)

/-- The interfaces inside the value hold values of types in the set. -/
inductive MadeOf (S : TId → Prop) : Val → Prop
  | bool {b} : MadeOf S (.bool b)
  | int {v} : MadeOf S (.int v)
  | float {w b} : MadeOf S (.float w b)
  | str {b} : MadeOf S (.str b)
  | time {t} : MadeOf S (.time t)
  | nil : MadeOf S .nil
  | opaque : MadeOf S .opaque
  | ptr {v} : MadeOf S v → MadeOf S (.ptr v)
  | slice {vs} : (∀ v ∈ vs, MadeOf S v) → MadeOf S (.slice vs)
  | array {vs} : (∀ v ∈ vs, MadeOf S v) → MadeOf S (.array vs)
  | struct {vs} : (∀ v ∈ vs, MadeOf S v) → MadeOf S (.struct vs)
  | map {kvs} : (∀ kv ∈ kvs, MadeOf S kv.1) → (∀ kv ∈ kvs, MadeOf S kv.2) → MadeOf S (.map kvs)
  | smap {kvs} : (∀ kv ∈ kvs, MadeOf S kv.1) → (∀ kv ∈ kvs, MadeOf S kv.2) → MadeOf S (.smap kvs)
  | iface {t v} : S t → MadeOf S v → MadeOf S (.iface t v)

/-- The two programs have the types of the set in common, and what they use of the standard library and of
the runtime. -/
structure InCommon (S : TId → Prop) (W W' : World) : Prop where
  types : ∀ t, S t → W'.E t = W.E t
  ptrTo : ∀ t, S t → W'.ptrTo t = W.ptrTo t
  rest : W' = { W with E := W'.E, ptrTo := W'.ptrTo }

/-- The interface value is nil or of a type of the set. -/
def EfaceIn (S : TId → Prop) (x : Eface) : Prop := ∀ t w, x = some (t, w) → S t

/-- The interfaces in the cell have types of the set. -/
def CellIn (S : TId → Prop) : Cell → Prop
  | .eface x => EfaceIn S x
  | .iface x => EfaceIn S x
  | .smap es => ∀ e ∈ es, EfaceIn S e.1 ∧ EfaceIn S e.2
  | _ => True

/-- The second memory is a part of the first one, in which interfaces have types of the set; methods of these
types do the same. -/
structure Inner (S : TId → Prop) (H H' : Heap) : Prop where
  sub : ∀ a c, H'.mem a = some c → H.mem a = some c
  dyn : ∀ a c, H'.mem a = some c → CellIn S c
  meth : ∀ path m ctx t w dst, S t → H'.meth path m ctx t w dst = H.meth path m ctx t w dst

/-- As `Ready`, but what depends on the types of the program is only asked of those of the set. -/
structure ReadyFor (S : TId → Prop) (W : World) (H : Heap) (M : MethV) : Prop where
  types : GoTypes W.E W.ptrTo
  apart : ∀ t, S t → RoutesApart W.U.isLetter W.U.isDigit W.grow W.E t
  nest : ∃ rank : TId → Nat, (∀ t f, S t → (W.E t).kind = .struct [f] → rank f.typ < rank t) ∧ ∀ t, rank t < W.tfuel
  tab : TablesOk W.U.isLetter W.U.isDigit
  sort : SortOk W.sort
  meth : ∀ path m ctx t w v dst, S t → Recv W.E H.mem t w v → MadeOf S v →
    H.meth path m ctx t w dst = M path m ctx t v dst

end Jettison.Spec
