import Verif.Spec.Writes

/-!
# Specification: how the text of dynamic data is put together

Dynamic data are slices, arrays, maps and structs of interfaces. `PutTogether W o R t v b`: `b` is the
text of the value `v` of such a type `t`, if `R d x c` says that `c` is the text of the value `x` of
type `d`.
-/

namespace Jettison.Spec
open Jettison Jettison.Model

/-- An interface type without custom methods. -/
def DynType (E : Env) (t : TId) : Prop := (∃ k, (E t).kind = .iface k) ∧ ByKind E t true

/-- The text of an interface: that of the value it holds, or `null`. -/
inductive HeldText (R : TId → Val → Bytes → Prop) : Val → Bytes → Prop
  | nil : HeldText R .nil (b! "null")
  | value {d x c} : R d x c → HeldText R (.iface d x) c

/-- The text of a slice, array, map with string keys, or struct of interfaces. -/
inductive PutTogether (W : World) (o : EncOpts) (R : TId → Val → Bytes → Prop) (t : TId) : Val → Bytes → Prop
  | slice {e vs bs} : (W.E t).kind = .slice e → DynType W.E e → bs.length = vs.length →
      (∀ (i : Nat) v b, vs[i]? = some v → bs[i]? = some b → HeldText R v b) → PutTogether W o R t (.slice vs) (b! "[" ++ commas bs ++ b! "]")
  | array {n e vs bs} : (W.E t).kind = .array n e → DynType W.E e → bs.length = vs.length →
      (∀ (i : Nat) v b, vs[i]? = some v → bs[i]? = some b → HeldText R v b) → PutTogether W o R t (.array vs) (b! "[" ++ commas bs ++ b! "]")
  | map {k e kvs} {ms ms' : List (Bytes × Bytes)} : (W.E t).kind = .map k e → (W.E k).kind = .string → DynType W.E e → ms.length = kvs.length →
      (∀ (i : Nat) kv m, kvs[i]? = some kv → ms[i]? = some m → ∃ s c, kv.1 = .str s ∧ SpelledAs o s c ∧ m.1 = b! "\"" ++ c ++ b! "\"") →
      (∀ (i : Nat) kv m, kvs[i]? = some kv → ms[i]? = some m → HeldText R kv.2 m.2) → InOrder o ms ms' →
      PutTogether W o R t (.map kvs) (objectOf ms')
  | struct {v} {l shown : List MField} {x : MField → Val} {b key : MField → Bytes} : IsStruct W.E t → MembersOf W.U.isLetter W.U.isDigit W.E t l →
      (∀ m ∈ l, DynType W.E m.decl.typ) → shown.Sublist l → (∀ m ∈ l, m ∈ shown ↔ ¬ LeftOut o v m) →
      (∀ m ∈ shown, FieldAt v m.path (x m)) → (∀ m ∈ shown, HeldText R (x m) (b m)) → (∀ m ∈ shown, NamedAs o m.name (key m)) →
      PutTogether W o R t v (b! "{" ++ commas (shown.map fun m => b! "\"" ++ key m ++ b! "\":" ++ b m) ++ b! "}")

/-- The slices, arrays, maps and structs of interfaces. -/
def Dynamic (W : World) (t : TId) (v : Val) : Prop :=
  v ≠ .nil ∧ ByKind W.E t false ∧
  ((∃ e, (W.E t).kind = .slice e ∧ DynType W.E e) ∨ (∃ n e, (W.E t).kind = .array n e ∧ DynType W.E e) ∨
    (∃ k e, (W.E t).kind = .map k e ∧ (W.E k).kind = .string ∧ DynType W.E e) ∨
    (IsStruct W.E t ∧ ∀ m, ChosenField W.U.isLetter W.U.isDigit W.E t m → DynType W.E m.decl.typ))

/-- The value `x` of type `d` is held by an interface that is encoded with the dynamic data. -/
inductive KeepsValue (W : World) (o : EncOpts) (t : TId) : Val → TId → Val → Prop
  | slice {e vs d x} : (W.E t).kind = .slice e → .iface d x ∈ vs → KeepsValue W o t (.slice vs) d x
  | array {n e vs d x} : (W.E t).kind = .array n e → .iface d x ∈ vs → KeepsValue W o t (.array vs) d x
  | map {k e kvs key d x} : (W.E t).kind = .map k e → (key, .iface d x) ∈ kvs → KeepsValue W o t (.map kvs) d x
  | field {v m d x} : IsStruct W.E t → ChosenField W.U.isLetter W.U.isDigit W.E t m → ¬ LeftOut o v m → FieldAt v m.path (.iface d x) → KeepsValue W o t v d x

end Jettison.Spec
