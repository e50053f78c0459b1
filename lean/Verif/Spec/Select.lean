import Verif.Spec.Fields
import Verif.Spec.Options
import Verif.Spec.Safe
import Verif.Spec.Json

/-!
# Specification: the members of the JSON object of a struct value

Which fields of a struct type are members, in which order, and which of them a given
value and given options leave out. Independent of instructions and memory.
-/

namespace Jettison.Spec
open Jettison Jettison.Model

/-- The members of a struct type, in declaration order. -/
def MembersOf (letter digit : Nat → Bool) (E : Env) (t : TId) (l : List MField) : Prop :=
  l.Pairwise (fun a b => PathLt a.path b.path) ∧ ∀ m, m ∈ l ↔ ChosenField letter digit E t m

/-- The tag of the field has the option. -/
def HasOpt (sf : FieldDef) (opt : Bytes) : Prop := ∃ nm opts, TagReading sf.tag nm opts ∧ opt ∈ opts

/-- The value of the field at an index path, through embedded structs and pointers. -/
inductive FieldAt : Val → List Nat → Val → Prop
  | last {vs i x} : vs[i]? = some x → FieldAt (.struct vs) [i] x
  | embed {vs i j is ws x} : vs[i]? = some (.struct ws) → FieldAt (.struct ws) (j :: is) x →
      FieldAt (.struct vs) (i :: j :: is) x
  | deref {vs i j is y x} : vs[i]? = some (.ptr y) → FieldAt y (j :: is) x → FieldAt (.struct vs) (i :: j :: is) x

/-- An embedded pointer on the way to the field is nil. -/
inductive BehindNil : Val → List Nat → Prop
  | here {vs i j is} : vs[i]? = some .nil → BehindNil (.struct vs) (i :: j :: is)
  | embed {vs i j is ws} : vs[i]? = some (.struct ws) → BehindNil (.struct ws) (j :: is) →
      BehindNil (.struct vs) (i :: j :: is)
  | deref {vs i j is y} : vs[i]? = some (.ptr y) → BehindNil y (j :: is) → BehindNil (.struct vs) (i :: j :: is)

/-- An integer of any kind that is 0. -/
def IntZero (v : IntVal) : Prop :=
  v = .int 0 ∨ v = .int8 0 ∨ v = .int16 0 ∨ v = .int32 0 ∨ v = .int64 0 ∨ v = .uint 0 ∨ v = .uint8 0 ∨
    v = .uint16 0 ∨ v = .uint32 0 ∨ v = .uint64 0 ∨ v = .uintptr 0

/-- The values that `omitempty` leaves out: false, 0, 0.0 (and -0.0), the empty string,
a nil pointer, interface, slice or map, and an empty array, slice or map. -/
def EmptyVal (v : Val) : Prop :=
  v = .bool false ∨ (∃ i, v = .int i ∧ IntZero i) ∨
    (∃ w b, v = .float w b ∧ expField w b = 0 ∧ mantField w b = 0) ∨ v = .str [] ∨ v = .nil ∨ v = .slice [] ∨
    v = .map [] ∨ v = .array []

/-- The options and the value leave the member out. -/
def LeftOut (o : EncOpts) (v : Val) (m : MField) : Prop :=
  Hidden o.allowList o.denyList m.name ∨ BehindNil v m.path ∨
    ∃ x, FieldAt v m.path x ∧ ((HasOpt m.decl (b! "omitnil") ∧ x = .nil) ∨ (HasOpt m.decl (b! "omitempty") ∧ EmptyVal x))

/-- The type is basic, or an unnamed pointer to a basic type. -/
def BasicOrPtr (E : Env) (t : TId) : Prop :=
  isBasicK (E t).kind = true ∨ ∃ e, (E t).kind = .ptr e ∧ (E t).name = [] ∧ isBasicK (E e).kind = true

/-- The type or a pointer to it has a `MarshalJSON` method. -/
def HasMarshalJSON (E : Env) (t : TId) : Prop := (E t).meths.json = true ∨ (E t).pmeths.json = true

/-- The text of the member is `null`, or ends so, and that leaves it out: it is tagged
`omitnil` and has a `MarshalJSON` method. -/
def NullDropped (E : Env) (m : MField) (text : Bytes) : Prop :=
  HasOpt m.decl (b! "omitnil") ∧ HasMarshalJSON E m.decl.typ ∧ ∃ pre, text = pre ++ b! "null"

/-- Instruction `i` was made for type `t` (in an addressable position if `ca`, with the
`string` option if `q`), and the location holds the value `v` of that type. -/
structure Stands (W : World) (H : Heap) (t : TId) (ca q : Bool) (i : Instr) (p : Loc) (v : Val) : Prop where
  made : ∃ k, newInstruction W.E k t ca q = some i
  holds : Repr W.E H.mem t p v
  addr : ca = true → isPtrK (W.E t).kind = true ∨ ∃ a, a ≠ 0 ∧ p = .heap a

/-- The type is encoded by its kind: it is none of the natively handled types and has
no method that could be used. -/
structure ByKind (E : Env) (t : TId) (ca : Bool) : Prop where
  special : (E t).special = none
  meths : ¬ MethSet.any (E t).meths
  pmeths : ca = true → isPtrK (E t).kind = false → ¬ MethSet.any (E t).pmeths

/-- The key type of a map is a string or integer type, or has a `MarshalText` method. -/
def KeyType (E : Env) (kt : TId) : Prop :=
  (E kt).kind = .string ∨ (∃ k, (E kt).kind = .int k) ∨ (E kt).meths.text = true

/-- The elements are bytes: of kind `uint8`, with no `MarshalJSON` or `MarshalText` method
on the pointer to them. -/
def ByteElem (E : Env) (e : TId) : Prop :=
  (E e).kind = .int .uint8 ∧ (E e).pmeths.json = false ∧ (E e).pmeths.text = false

/-- The elements are these bytes. -/
def AsBytes (vs : List Val) (b : Bytes) : Prop := vs = b.map fun c => .int (.uint8 c)

/-- A key followed by a colon, as a string token denoting the name. -/
def KeyOf (name k : Bytes) : Prop := ∃ body, k = strToken body ++ [c! ':'] ∧ unescape body = some name

/-- Go field names are identifiers. -/
def GoNames (letter digit : Nat → Bool) (E : Env) : Prop :=
  ∀ u fs sf, HasFields E u fs → sf ∈ fs → GoIdent letter digit sf.name

end Jettison.Spec
