import Verif.Spec.Writes

/-!
# Specification: structs with the same members

What of a struct is encoded: the members that are shown, with their names, types, options and values. How they are declared, embedded or not, and
what else the structs have, is left open.
-/

namespace Jettison.Spec
open Jettison Jettison.Model

/-- The members shown of a struct, in their order. -/
def ShownMembers (W : World) (o : EncOpts) (t : TId) (v : Val) (shown : List MField) : Prop :=
  ∃ l, MembersOf W.U.isLetter W.U.isDigit W.E t l ∧ shown.Sublist l ∧ ∀ m ∈ l, m ∈ shown ↔ ¬ LeftOut o v m

/-- Members of the same name, type, options and value. -/
structure SameMember (v v' : Val) (m m' : MField) : Prop where
  name : m'.name = m.name
  typ : m'.decl.typ = m.decl.typ
  quoted : HasOpt m'.decl (b! "string") ↔ HasOpt m.decl (b! "string")
  omitnil : HasOpt m'.decl (b! "omitnil") ↔ HasOpt m.decl (b! "omitnil")
  value : ∃ x, FieldAt v m.path x ∧ FieldAt v' m'.path x

/-- The structs show the same members, in the same order. -/
def SameMembers (W : World) (o : EncOpts) (t : TId) (v : Val) (t' : TId) (v' : Val) : Prop :=
  ∃ shown shown', ShownMembers W o t v shown ∧ ShownMembers W o t' v' shown' ∧ shown'.length = shown.length ∧
    ∀ (i : Nat) m m', shown[i]? = some m → shown'[i]? = some m' → SameMember v v' m m'

/-- A struct type without methods of its own. -/
def PlainStruct (E : Env) (t : TId) (ca : Bool) : Prop := IsStruct E t ∧ ByKind E t ca

end Jettison.Spec
