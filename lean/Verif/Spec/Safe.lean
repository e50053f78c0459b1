import Verif.Spec.Value
import Verif.Model.Encode
import Verif.Spec.Route
import Verif.Spec.Sort
import Verif.Spec.Tags

/-!
# Specification: universes of Go types, and the traps in them

`GoTypes` holds of every universe of Go types. The code reads memory wrongly for values of some
types (findings 11, 12, 13 in DESIGN.md, each with its own counterexample theorem): `Repr` excludes
the values, `NoTrap` the types. It also does for members of some structs (finding 15), which
`RoutesApart` excludes.
-/

namespace Jettison.Spec
open Jettison.Model

/-- The method is one of the set. -/
def MethSet.Has (s : MethSet) (m : MethKind) : Prop :=
  (m = .appendCtx ∧ s.appendCtx = true) ∨ (m = .append ∧ s.append = true) ∨ (m = .json ∧ s.json = true) ∨ (m = .text ∧ s.text = true)

/-- What Go and its standard library guarantee about types. -/
structure GoTypes (E : Env) (ptrTo : TId → TId) : Prop where
  ptrTo_kind : ∀ t, (E (ptrTo t)).kind = .ptr t
  duration : ∀ t, (E t).special = some .duration → (E t).kind = .int .int64
  number : ∀ t, (E t).special = some .number → (E t).kind = .string
  rawMessage : ∀ t, (E t).special = some .rawMessage → ∃ e, (E t).kind = .slice e ∧ (E e).kind = .int .uint8
  time : ∀ t, (E t).special = some .time → ∃ fs, (E t).kind = .struct fs ∧ ∀ sf ∈ fs, ¬ Encodable E sf
  syncMap : ∀ t, (E t).special = some .syncMap → ∃ fs, (E t).kind = .struct fs ∧ ∀ sf ∈ fs, ¬ Encodable E sf
  byteSize : ∀ t, (E t).kind = .int .uint8 → (E t).size = 1

/-- Types without the traps of findings 11 to 13: all values of such types can be read.
- `array1`: no array of one pointer-shaped element;
- `iface`: no interface type with methods, none of them a marshaler method;
- `recv`: no marshaler method with a value receiver on a map, function or channel type or on a
  struct or array wrapping one pointer. -/
structure NoTrap (E : Env) : Prop where
  array1 : ∀ t e, (E t).kind = .array 1 e → Direct E e → Blank E e
  iface : ∀ t n, (E t).kind = .iface (n + 1) → MethSet.any (E t).meths
  recv : ∀ t, MethSet.any (E t).meths → Direct E t → ∃ e, (E t).kind = .ptr e

/-- Structs wrapping one field nest less than `n` deep. -/
def NestBound (E : Env) (n : Nat) : Prop :=
  ∃ rank : TId → Nat, (∀ t f, (E t).kind = .struct [f] → rank f.typ < rank t) ∧ ∀ t, rank t < n

/-- A method that appends a text of its own to what it is given, fails or panics, whatever that is. -/
def Appends (f : Bytes → MethRes) : Prop := (∃ e, ∀ dst, f dst = .err e) ∨ (∀ dst, f dst = .panic) ∨ ∃ out, ∀ dst, f dst = .ok (dst ++ out)

/-- `AppendJSON` and `AppendJSONContext` methods do what their documentation asks
for: append to the destination (/repo/json.go:10-27). `α` is what stands for the
receiver. -/
def HonestAppend {α : Type} (meth : Path → MethKind → Option Ctx → TId → α → Bytes → MethRes) : Prop :=
  ∀ path m ctx t w, m = .append ∨ m = .appendCtx → Appends (meth path m ctx t w)

/-- The methods of the users, as functions of the receiver's value. -/
abbrev MethV := Path → MethKind → Option Ctx → TId → Val → Bytes → MethRes

/-- The setting of the theorems about memory: Go types, members whose recorded routes have no step of
another struct (such a step takes two structs embedded by one below three others, see `C71_no_fork`), structs
wrapping one field nested no deeper than the bound of the model, contracts for the
parameters, and methods whose result is a function of the value they are called on. -/
structure Ready (W : World) (H : Heap) (M : MethV) : Prop where
  types : GoTypes W.E W.ptrTo
  apart : ∀ t, RoutesApart W.U.isLetter W.U.isDigit W.grow W.E t
  nest : NestBound W.E W.tfuel
  tab : TablesOk W.U.isLetter W.U.isDigit
  sort : SortOk W.sort
  meth : ∀ path m ctx t w v dst, Recv W.E H.mem t w v → H.meth path m ctx t w dst = M path m ctx t v dst

end Jettison.Spec
