import Verif.Spec.Value

/-!
What a `sync.Map` holds for an entry of a map.

* `held`: a value of a type as an interface. An interface is not wrapped again.
-/

namespace Jettison.Spec

open Jettison Jettison.Model

/-- The interface that holds the value `x` of type `t`; an interface itself is copied (the Go specification, "Assignability"). -/
def held (E : Env) (t : TId) (x : Val) : Val :=
  match (E t).kind with
  | .iface _ => x
  | _ => .iface t x

/-- The contents of a `sync.Map` with the entries of a map, whose keys have type `kt` and whose values have type `et`. -/
def heldMap (E : Env) (kt et : TId) (kvs : List (Val × Val)) : Val := .smap (kvs.map fun kv => (.iface kt kv.1, held E et kv.2))

/-- The entries that a `sync.Map` does not encode like a map: an interface that is nil and a key that is a nil pointer. -/
def OddEntry (E : Env) (kt et : TId) (kv : Val × Val) : Prop :=
  ((∃ n, (E et).kind = .iface n) ∧ kv.2 = .nil) ∨ ((∃ e, (E kt).kind = .ptr e) ∧ kv.1 = .nil)

end Jettison.Spec
