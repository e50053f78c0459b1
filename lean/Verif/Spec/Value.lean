import Verif.Model.Memory

/-!
# Specification: Go values and how memory holds them

`Val` is a Go value without addresses. `Holds E m t p v`: the memory `m` holds, at
`p`, the value `v` of type `t`, laid out as the Go compiler does. `HoldsE` is the
same for an interface value. `Repr` and `ReprE` say moreover that the value has no part that the
library cannot read (findings 11 to 13): the theorems are about such values. The types of these
findings may occur, as in a nil `error`, and a universe without them has no other values
(`C36_holds`). Values are finite, so cyclic data has none.
-/

namespace Jettison.Spec
open Jettison.Model

/-- A Go value. `nil` is a nil pointer, map, slice or interface; `smap` a
`sync.Map`; `iface t v` an interface holding `v` of type `t`; `opaque` a value of
one of the kinds that cannot be encoded (channels, functions, complex numbers). -/
inductive Val
  | bool (b : Bool)
  | int (v : IntVal)
  | float (w : FWidth) (bits : Nat)
  | str (b : Bytes)
  | time (t : GoTime)
  | nil
  | ptr (v : Val)
  | slice (vs : List Val)
  | array (vs : List Val)
  | struct (vs : List Val)
  | map (kvs : List (Val × Val))
  | iface (t : TId) (v : Val)
  | smap (kvs : List (Val × Val))
  | opaque

/-- The types whose values an interface holds directly in its data word: pointers,
maps, channels, functions, unsafe pointers, and structs and arrays with one such
component. -/
inductive Direct (E : Env) : TId → Prop
  | ptr {t e} : (E t).kind = .ptr e → Direct E t
  | map {t k e} : (E t).kind = .map k e → Direct E t
  | word {t} : (E t).kind = .other → (E t).word = true → Direct E t
  | struct {t f} : (E t).kind = .struct [f] → Direct E f.typ → Direct E t
  | array {t e} : (E t).kind = .array 1 e → Direct E e → Direct E t

mutual
/-- The memory `m` holds the value at the location, as the Go compiler lays it out. -/
inductive Holds (E : Env) (m : Mem) : TId → Loc → Val → Prop
  | bool {t p b} : (E t).kind = .bool → m.at p = some (.bool b) → Holds E m t p (.bool b)
  | int {t p v} : (E t).kind = .int v.kind → m.at p = some (.int v) → Holds E m t p (.int v)
  | float {t p w b} : (E t).kind = .float w → m.at p = some (.float w b) → Holds E m t p (.float w b)
  | str {t p b} : (E t).kind = .string → m.at p = some (.str b) → Holds E m t p (.str b)
  | time {t p x} : (E t).special = some .time → m.at p = some (.time x) → Holds E m t p (.time x)
  | smap {t p es kvs} : (E t).special = some .syncMap → m.at p = some (.smap es) → es.length = kvs.length →
      (∀ (i : Nat) e kv, es[i]? = some e → kvs[i]? = some kv → HoldsE E m e.1 kv.1) →
      (∀ (i : Nat) e kv, es[i]? = some e → kvs[i]? = some kv → HoldsE E m e.2 kv.2) →
      Holds E m t p (.smap kvs)
  | nilPtr {t p e} : (E t).kind = .ptr e → m.at p = some (.word 0) → Holds E m t p .nil
  | ptr {t p e a v} : (E t).kind = .ptr e → m.at p = some (.word a) → a ≠ 0 → Holds E m e (.heap a) v →
      Holds E m t p (.ptr v)
  | nilMap {t p k e} : (E t).kind = .map k e → m.at p = some (.word 0) → Holds E m t p .nil
  | map {t p k e a es kvs} : (E t).kind = .map k e → m.at p = some (.word a) → a ≠ 0 →
      m.at (.heap a) = some (.hmap es) → es.length = kvs.length →
      (∀ (i : Nat) x kv, es[i]? = some x → kvs[i]? = some kv → Holds E m k (.heap x.1) kv.1) →
      (∀ (i : Nat) x kv, es[i]? = some x → kvs[i]? = some kv → Holds E m e (.heap x.2) kv.2) →
      Holds E m t p (.map kvs)
  | nilSlice {t p e} : (E t).kind = .slice e → m.at p = some (.slice 0 0) → Holds E m t p .nil
  | slice {t p e d vs} : (E t).kind = .slice e → m.at p = some (.slice d vs.length) → d ≠ 0 →
      (∀ (i : Nat) v, vs[i]? = some v → Holds E m e (.heap (d + i * (E e).size)) v) → Holds E m t p (.slice vs)
  | array {t p e vs} : (E t).kind = .array vs.length e →
      (∀ (i : Nat) v, vs[i]? = some v → Holds E m e (p.add (i * (E e).size)) v) → Holds E m t p (.array vs)
  | struct {t p fs vs} : (E t).kind = .struct fs → (E t).special = none → fs.length = vs.length →
      (∀ (i : Nat) f v, fs[i]? = some f → vs[i]? = some v → Holds E m f.typ (p.add f.offset) v) →
      Holds E m t p (.struct vs)
  | eface {t p x v} : (E t).kind = .iface 0 → m.at p = some (.eface x) → HoldsE E m x v → Holds E m t p v
  | iface {t p n x v} : (E t).kind = .iface (n + 1) → m.at p = some (.iface x) → HoldsE E m x v → Holds E m t p v
  | opaque {t p} : (E t).kind = .other → Holds E m t p .opaque

/-- An interface value: nothing, or a dynamic type and its data word, which is the
value itself for direct types and its address for the others. -/
inductive HoldsE (E : Env) (m : Mem) : Eface → Val → Prop
  | nil : HoldsE E m none .nil
  | direct {t w v} : Direct E t → Holds E m t (.tmp w) v → HoldsE E m (some (t, w)) (.iface t v)
  | indirect {t w v} : ¬ Direct E t → w ≠ 0 → Holds E m t (.heap w) v → HoldsE E m (some (t, w)) (.iface t v)
end

/-- The direct types the library takes for direct. It does not know the arrays (finding 11), nor what
it cannot encode. -/
inductive Inlined (E : Env) : TId → Prop
  | ptr {t e} : (E t).kind = .ptr e → Inlined E t
  | map {t k e} : (E t).kind = .map k e → Inlined E t
  | struct {t f} : (E t).kind = .struct [f] → Inlined E f.typ → Inlined E t

/-- The direct types whose values have nothing to read: channels, functions, unsafe pointers, and what
wraps one of them. -/
inductive Blank (E : Env) : TId → Prop
  | word {t} : (E t).kind = .other → (E t).word = true → Blank E t
  | struct {t f} : (E t).kind = .struct [f] → (E t).special = none → Blank E f.typ → Blank E t
  | array {t e} : (E t).kind = .array 1 e → Blank E e → Blank E t

/-- The data word of an interface can be taken for the address of its value: it is that address, or
there is nothing to read. -/
def Pointed (E : Env) (t : TId) (w : Addr) : Prop := (¬ Direct E t ∧ w ≠ 0) ∨ Blank E t

/-- Some of the four methods is available. -/
def MethSet.any (m : MethSet) : Prop := m.appendCtx = true ∨ m.append = true ∨ m.json = true ∨ m.text = true

/-- Not a direct type with a method on values: the receiver of the method would be wrong (finding 12). -/
def Bare (E : Env) (t : TId) : Prop := MethSet.any (E t).meths → ¬ Direct E t

mutual
/-- The memory `m` holds the value at the location, and the library can read all of it: as `Holds`, without
values of the types of findings 11 to 13 where they matter. -/
inductive Repr (E : Env) (m : Mem) : TId → Loc → Val → Prop
  | bool {t p b} : (E t).kind = .bool → m.at p = some (.bool b) → Repr E m t p (.bool b)
  | int {t p v} : (E t).kind = .int v.kind → m.at p = some (.int v) → Repr E m t p (.int v)
  | float {t p w b} : (E t).kind = .float w → m.at p = some (.float w b) → Repr E m t p (.float w b)
  | str {t p b} : (E t).kind = .string → m.at p = some (.str b) → Repr E m t p (.str b)
  | time {t p x} : (E t).special = some .time → m.at p = some (.time x) → Repr E m t p (.time x)
  | smap {t p es kvs} : (E t).special = some .syncMap → m.at p = some (.smap es) → es.length = kvs.length →
      (∀ (i : Nat) e kv, es[i]? = some e → kvs[i]? = some kv → ReprE E m e.1 kv.1) →
      (∀ (i : Nat) e kv, es[i]? = some e → kvs[i]? = some kv → ReprE E m e.2 kv.2) →
      Repr E m t p (.smap kvs)
  | nilPtr {t p e} : (E t).kind = .ptr e → m.at p = some (.word 0) → Repr E m t p .nil
  | ptr {t p e a v} : (E t).kind = .ptr e → m.at p = some (.word a) → a ≠ 0 → Repr E m e (.heap a) v →
      Repr E m t p (.ptr v)
  | nilMap {t p k e} : (E t).kind = .map k e → Bare E t → m.at p = some (.word 0) → Repr E m t p .nil
  | map {t p k e a es kvs} : (E t).kind = .map k e → Bare E t → m.at p = some (.word a) → a ≠ 0 →
      m.at (.heap a) = some (.hmap es) → es.length = kvs.length →
      (∀ (i : Nat) x kv, es[i]? = some x → kvs[i]? = some kv → Repr E m k (.heap x.1) kv.1) →
      (∀ (i : Nat) x kv, es[i]? = some x → kvs[i]? = some kv → Repr E m e (.heap x.2) kv.2) →
      Repr E m t p (.map kvs)
  | nilSlice {t p e} : (E t).kind = .slice e → m.at p = some (.slice 0 0) → Repr E m t p .nil
  | slice {t p e d vs} : (E t).kind = .slice e → m.at p = some (.slice d vs.length) → d ≠ 0 →
      (∀ (i : Nat) v, vs[i]? = some v → Repr E m e (.heap (d + i * (E e).size)) v) → Repr E m t p (.slice vs)
  | array {t p e vs} : (E t).kind = .array vs.length e → Bare E t →
      (∀ (i : Nat) v, vs[i]? = some v → Repr E m e (p.add (i * (E e).size)) v) → Repr E m t p (.array vs)
  | struct {t p fs vs} : (E t).kind = .struct fs → (E t).special = none → Bare E t → fs.length = vs.length →
      (∀ (i : Nat) f v, fs[i]? = some f → vs[i]? = some v → Repr E m f.typ (p.add f.offset) v) →
      Repr E m t p (.struct vs)
  | eface {t p x v} : (E t).kind = .iface 0 → m.at p = some (.eface x) → ReprE E m x v → Repr E m t p v
  | iface {t p n x v} : (E t).kind = .iface (n + 1) → m.at p = some (.iface x) → (x ≠ none → MethSet.any (E t).meths) →
      ReprE E m x v → Repr E m t p v
  | opaque {t p} : (E t).kind = .other → Bare E t → Repr E m t p .opaque

/-- An interface value the library can read: nothing, or a dynamic type and its data word, which is the
value itself for pointers, maps and what wraps one of them, and its address for the others. -/
inductive ReprE (E : Env) (m : Mem) : Eface → Val → Prop
  | nil : ReprE E m none .nil
  | direct {t w v} : Inlined E t → Repr E m t (.tmp w) v → ReprE E m (some (t, w)) (.iface t v)
  | indirect {t w v} : Pointed E t w → Repr E m t (.heap w) v → ReprE E m (some (t, w)) (.iface t v)
end

/-- The interface value a method is called on denotes `v`: its word is the value
itself for direct types, a pointer to it for the others. -/
inductive Recv (E : Env) (m : Mem) : TId → Loc → Val → Prop
  | direct {t w v} : Direct E t → Repr E m t (.tmp w) v → Recv E m t (.heap w) v
  | indirect {t w v} : ¬ Direct E t → Repr E m t w v → Recv E m t w v

end Jettison.Spec
