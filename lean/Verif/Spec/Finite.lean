import Verif.Spec.Safe

/-!
# Specification: finite types and finite values

What it takes for a call to end: finitely many types, none of which is made of itself
without a struct in between (`type T []T` is), and data without cycles.
-/

namespace Jettison.Spec
open Jettison.Model

/-- One or more steps from a type to its element or key type. -/
inductive Inside (E : Env) : TId → TId → Prop
  | one {u t} : PartOf E u t → Inside E u t
  | step {u v t} : PartOf E u v → Inside E v t → Inside E u t

/-- The finite set of types has the element, key and field types of its members, and none
of them is made of itself without a struct in between. -/
structure FiniteTypes (E : Env) (S : List TId) : Prop where
  parts : ∀ t ∈ S, ∀ u, PartOf E u t → u ∈ S
  fields : ∀ t ∈ S, ∀ fs sf, HasFields E t fs → sf ∈ fs → sf.typ ∈ S
  grounded : ∀ t ∈ S, ¬ Inside E t t

mutual
/-- How deep the value is. -/
def depthV : Val → Nat
  | .ptr v => depthV v + 1
  | .iface _ v => depthV v + 1
  | .slice vs => depthL vs + 1
  | .array vs => depthL vs + 1
  | .struct vs => depthL vs + 1
  | .map kvs => depthKV kvs + 1
  | .smap kvs => depthKV kvs + 1
  | _ => 0

def depthL : List Val → Nat
  | [] => 0
  | v :: vs => max (depthV v) (depthL vs)

def depthKV : List (Val × Val) → Nat
  | [] => 0
  | (k, v) :: t => max (max (depthV k) (depthV v)) (depthKV t)
end

/-- The dynamic type of an interface value is in the set. -/
def DynIn (S : List TId) (x : Eface) : Prop := ∀ t w, x = some (t, w) → t ∈ S

/-- All interface values in memory have dynamic types in the set. -/
structure HeapIn (S : List TId) (m : Mem) : Prop where
  eface : ∀ p x, m.at p = some (.eface x) → DynIn S x
  iface : ∀ p x, m.at p = some (.iface x) → DynIn S x
  smap : ∀ p es, m.at p = some (.smap es) → ∀ e ∈ es, DynIn S e.1 ∧ DynIn S e.2

end Jettison.Spec
