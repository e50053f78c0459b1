import Verif.Spec.Compose

/-!
# Specification: the map with the members of a struct

`MemberMap W o t v kvs`: the `map[string]interface{}` with the entries `kvs` has the members of the
struct `v` that are shown under the options.
-/

namespace Jettison.Spec
open Jettison Jettison.Model

/-- A value in an interface; what an interface holds is passed on. -/
inductive Boxed (E : Env) (t : TId) (x : Val) : Val → Prop
  | value : ¬ IsIface E t → Boxed E t x (.iface t x)
  | held : IsIface E t → Boxed E t x x

/-- The entry for a member: its name, and its value in an interface. -/
def EntryFor (W : World) (v : Val) (m : MField) (kv : Val × Val) : Prop :=
  kv.1 = .str m.name ∧ ∃ x, FieldAt v m.path x ∧ Boxed W.E m.decl.typ x kv.2

/-- An entry for each member that is shown, in any order. -/
def MemberMap (W : World) (o : EncOpts) (t : TId) (v : Val) (kvs : List (Val × Val)) : Prop :=
  ∃ l shown : List MField, MembersOf W.U.isLetter W.U.isDigit W.E t l ∧ shown.Nodup ∧ (∀ m, m ∈ shown ↔ m ∈ l ∧ ¬ LeftOut o v m) ∧
    kvs.length = shown.length ∧ ∀ (i : Nat) m kv, shown[i]? = some m → kvs[i]? = some kv → EntryFor W v m kv

/-- Characters that are spelled the same in names of fields and in strings. -/
def PlainName (s : Bytes) : Prop :=
  ∃ cps : List Nat, (∀ c ∈ cps, IsScalar c ∧ 0x20 ≤ c ∧ c ≠ 0x22 ∧ c ≠ 0x5C ∧ c ≠ 0x2028 ∧ c ≠ 0x2029) ∧ s = cps.flatMap utf8Encode

/-- A member that is encoded like an entry of a map: not in a string, not dropped for its text, and if it is an interface, one without custom methods. -/
structure LikeEntry (E : Env) (m : MField) : Prop where
  plain : ¬ (HasOpt m.decl (b! "string") ∧ BasicOrPtr E m.decl.typ)
  kept : ¬ (HasOpt m.decl (b! "omitnil") ∧ HasMarshalJSON E m.decl.typ)
  iface : IsIface E m.decl.typ → DynType E m.decl.typ
  name : PlainName m.name

/-- A struct type without custom methods, with such members. -/
def LikeMap (W : World) (t : TId) : Prop :=
  IsStruct W.E t ∧ ByKind W.E t false ∧ ∀ m, ChosenField W.U.isLetter W.U.isDigit W.E t m → LikeEntry W.E m

/-- A type like `map[string]interface{}`. -/
def AnyMap (W : World) (t : TId) : Prop :=
  ByKind W.E t false ∧ ∃ k e, (W.E t).kind = .map k e ∧ (W.E k).kind = .string ∧ DynType W.E e

end Jettison.Spec
