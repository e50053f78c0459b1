import Verif.Basic
import Verif.Model.Integer
import Verif.Spec.Float

/-!
# Model of Go types as the code sees them through `reflect` (/repo/types.go)

A type is an identifier (`reflect.Type` values are comparable, and so is the
pointer `typeID` of /repo/instruction.go:27-29); the environment gives its
definition. Recursive types are cycles of identifiers.
-/

namespace Jettison.Model
open Jettison.Spec (FWidth)

/-- A `reflect.Type`. As at /repo/instruction.go:85. -/
abbrev TId := Nat

/-- The integer kinds, in the order of /repo/types.go:52-62. -/
inductive IntK | int | int8 | int16 | int32 | int64 | uint | uint8 | uint16 | uint32 | uint64 | uintptr
  deriving DecidableEq, Repr

/-- What the code reads of a `reflect.StructField`. `exported` is `PkgPath == ""`
(/repo/struct.go:131), `tag` is `Tag.Get("json")` (/repo/struct.go:239). -/
structure FieldDef where
  name : Bytes
  exported : Bool
  anonymous : Bool
  tag : Bytes
  typ : TId
  offset : Nat
  deriving DecidableEq, Repr

/-- `reflect.Kind` with the component types. `other` stands for Complex64,
Complex128, Chan, Func and UnsafePointer, which the code never names.
`iface` carries `NumMethod()` (/repo/instruction.go:100-114, 166-199). -/
inductive Kind
  | bool
  | int (k : IntK)
  | float (w : FWidth)
  | string
  | iface (numMethod : Nat)
  | struct (fields : List FieldDef)
  | map (key elem : TId)
  | slice (elem : TId)
  | array (len : Nat) (elem : TId)
  | ptr (elem : TId)
  | other
  deriving DecidableEq, Repr

/-- The standard types with their own instruction, /repo/instruction.go:117-132. -/
inductive Special | syncMap | time | duration | number | rawMessage
  deriving DecidableEq, Repr

/-- Which of the four marshaler interfaces a type implements (/repo/instruction.go:141-157). -/
structure MethSet where
  appendCtx : Bool := false
  append : Bool := false
  json : Bool := false
  text : Bool := false
  deriving DecidableEq, Repr

/-- A type definition. `meths` is `t.Implements(·)`, `pmeths` is
`reflect.PtrTo(t).Implements(·)`, `name` is `t.Name()`, `size` is `t.Size()`; `word` tells,
of the kind `other`, Chan, Func and UnsafePointer from the complex kinds: values of the former are one
pointer. The code never asks, but the layout of interfaces depends on it
(/repo/instruction.go:137-157, /repo/struct.go:230-260). -/
structure TypeDef where
  kind : Kind
  name : Bytes := []
  special : Option Special := none
  meths : MethSet := {}
  pmeths : MethSet := {}
  size : Nat := 0
  word : Bool := false
  deriving DecidableEq, Repr

/-- A universe of types. What `reflect` tells, /repo/types.go. -/
abbrev Env := TId → TypeDef

/-- `t.Kind() == reflect.Struct` (/repo/struct.go:141, 260). -/
def isStructK : Kind → Bool | .struct _ => true | _ => false

/-- `t.NumField()`/`t.Field(i)`; only called on structs (/repo/struct.go:233-234). -/
def fieldsOfK : Kind → List FieldDef | .struct fs => fs | _ => []

/-- `isInteger`, /repo/types.go:50-67. -/
def isInteger (k : Kind) : Bool := match k with | .int _ => true | _ => false

/-- `isBasicType`, /repo/types.go:35-48. -/
def isBasicK (k : Kind) : Bool :=
  match k with
  | .bool => true
  | .string => true
  | .float _ => true
  | k => isInteger k

/-- `isNilable`, /repo/types.go:80-86. -/
def isNilable (k : Kind) : Bool :=
  match k with
  | .ptr _ | .iface _ | .slice _ | .map _ _ => true
  | _ => false

/-- `t.Kind() == reflect.Ptr` (/repo/instruction.go:39, 138). -/
def isPtrK : Kind → Bool | .ptr _ => true | _ => false

/-- `if t.Kind() == reflect.Ptr { t = t.Elem() }` (/repo/struct.go:134-136, 207-209; /repo/instruction.go:302-304). -/
def derefOnce (E : Env) (t : TId) : TId := match (E t).kind with | .ptr e => e | _ => t

end Jettison.Model
