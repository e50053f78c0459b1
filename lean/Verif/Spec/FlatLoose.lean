import Verif.Spec.Flat
import Verif.Spec.Loosened

/-!
# Specification: structs whose members are held in interfaces
-/

namespace Jettison.Spec
open Jettison Jettison.Model

/-- A member, and one of an interface type that holds its value (`Generic`). -/
def HeldMember (W : World) (o : EncOpts) (v v' : Val) (m m' : MField) : Prop :=
  MayHold W.E v v' m m' ∧ ∃ x y, FieldAt v m.path x ∧ FieldAt v' m'.path y ∧ Generic W o m.decl.typ x y

/-- The structs show the same members, in the same order, some of them in interfaces in the second. -/
def HeldMembers (W : World) (o : EncOpts) (t : TId) (v : Val) (t' : TId) (v' : Val) : Prop :=
  ∃ shown shown', ShownMembers W o t v shown ∧ ShownMembers W o t' v' shown' ∧ shown'.length = shown.length ∧
    ∀ (i : Nat) m m', shown[i]? = some m → shown'[i]? = some m' → SameMember v v' m m' ∨ HeldMember W o v v' m m'

end Jettison.Spec
