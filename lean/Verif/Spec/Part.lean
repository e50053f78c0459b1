import Verif.Spec.Value

/-!
# Specification: typed values and their parts

`HasType E t v`: `v` is a value of type `t`, whatever memory holds it. `Within E t v t' v'`:
the value `v'` of type `t'` is `v` or some part of it, at any depth: behind pointers,
in interfaces, in containers, in fields.
-/

namespace Jettison.Spec
open Jettison Jettison.Model

mutual
/-- Values of a type. -/
inductive HasType (E : Env) : TId → Val → Prop
  | bool {t b} : (E t).kind = .bool → HasType E t (.bool b)
  | int {t v} : (E t).kind = .int v.kind → HasType E t (.int v)
  | float {t w b} : (E t).kind = .float w → HasType E t (.float w b)
  | str {t b} : (E t).kind = .string → HasType E t (.str b)
  | time {t x} : (E t).special = some .time → HasType E t (.time x)
  | smap {t kvs} : (E t).special = some .syncMap → (∀ kv, kv ∈ kvs → InIface E kv.1) →
      (∀ kv, kv ∈ kvs → InIface E kv.2) → HasType E t (.smap kvs)
  | nilPtr {t e} : (E t).kind = .ptr e → HasType E t .nil
  | ptr {t e v} : (E t).kind = .ptr e → HasType E e v → HasType E t (.ptr v)
  | nilMap {t k e} : (E t).kind = .map k e → HasType E t .nil
  | map {t k e kvs} : (E t).kind = .map k e → (∀ kv, kv ∈ kvs → HasType E k kv.1) → (∀ kv, kv ∈ kvs → HasType E e kv.2) →
      HasType E t (.map kvs)
  | nilSlice {t e} : (E t).kind = .slice e → HasType E t .nil
  | slice {t e vs} : (E t).kind = .slice e → (∀ v, v ∈ vs → HasType E e v) → HasType E t (.slice vs)
  | array {t e vs} : (E t).kind = .array vs.length e → (∀ v, v ∈ vs → HasType E e v) → HasType E t (.array vs)
  | struct {t fs vs} : (E t).kind = .struct fs → (E t).special = none → fs.length = vs.length →
      (∀ (i : Nat) f v, fs[i]? = some f → vs[i]? = some v → HasType E f.typ v) → HasType E t (.struct vs)
  | iface {t n v} : (E t).kind = .iface n → InIface E v → HasType E t v
  | opaque {t} : (E t).kind = .other → HasType E t .opaque

/-- Values of interface types. -/
inductive InIface (E : Env) : Val → Prop
  | nil : InIface E .nil
  | val {t v} : HasType E t v → InIface E (.iface t v)
end

/-- The immediate parts of a value, with their types. -/
inductive Part (E : Env) : TId → Val → TId → Val → Prop
  | ptr {t e v} : (E t).kind = .ptr e → Part E t (.ptr v) e v
  | slice {t e vs v} : (E t).kind = .slice e → v ∈ vs → Part E t (.slice vs) e v
  | array {t n e vs v} : (E t).kind = .array n e → v ∈ vs → Part E t (.array vs) e v
  | key {t k e kvs kv} : (E t).kind = .map k e → kv ∈ kvs → Part E t (.map kvs) k kv.1
  | elem {t k e kvs kv} : (E t).kind = .map k e → kv ∈ kvs → Part E t (.map kvs) e kv.2
  | field {t fs vs f v} {i : Nat} : (E t).kind = .struct fs → fs[i]? = some f → vs[i]? = some v → Part E t (.struct vs) f.typ v
  | iface {t d v} : Part E t (.iface d v) d v
  | skey {t kvs kv d v} : kv ∈ kvs → kv.1 = .iface d v → Part E t (.smap kvs) d v
  | selem {t kvs kv d v} : kv ∈ kvs → kv.2 = .iface d v → Part E t (.smap kvs) d v

/-- The value itself and all its parts. -/
inductive Within (E : Env) (t : TId) (v : Val) : TId → Val → Prop
  | refl : Within E t v t v
  | step {t' v' t'' v''} : Within E t v t' v' → Part E t' v' t'' v'' → Within E t v t'' v''

end Jettison.Spec
