import Verif.Model.Fields
import Verif.Model.Memory

/-!
# Model of instruction generation (/repo/instruction.go, /repo/types.go)

The closures are defunctionalised: an `Instr` names the closure and what it
captures. The instruction of a struct is a reference `struct t canAddr`; what it
refers to is `structFieldsInstr` (/repo/instruction.go:286-324). This file is the
meaning of generation without caches; Model/Gen is generation with the struct cache
and its placeholders.
-/

namespace Jettison.Model
open Jettison.Spec (FWidth)

/-- The four methods, /repo/json.go:29-34. -/
inductive MethKind | appendCtx | append | json | text
  deriving DecidableEq, Repr

/-- An instruction (/repo/instruction.go:16-19). -/
inductive Instr
  | goType (s : Special)                                  -- newGoTypeInstr, instruction.go:117-132
  | marshaler (m : MethKind) (t : TId) (hasPtr : Bool)    -- instruction.go:227-249
  | bool | int (k : IntK) | float (w : FWidth)            -- newBasicTypeInstr, instruction.go:163-204
  | string | quotedString                                 -- newStringInstr, instruction.go:206-211
  | quoted (i : Instr)                                    -- wrapQuotedInstr, instruction.go:413-423
  | nilText (i : Instr)                                   -- wrapTextMarshalerNilCheck, instruction.go:425-432
  | inline (i : Instr)                                    -- wrapInlineInstr, instruction.go:407-411
  | iface                                                 -- encodeInterface, encode.go:65-74
  | struct (t : TId) (canAddr : Bool)                     -- newStructInstr, instruction.go:251-284
  | map (t : TId) (ki vi : Instr)                         -- newMapInstr, instruction.go:371-405
  | byteSlice | slice (i : Instr) (size : Nat)            -- newSliceInstr, instruction.go:350-369
  | array (i : Instr) (size len : Nat) (isba : Bool)      -- newArrayInstr, instruction.go:326-348
  | ptr (i : Instr)                                       -- newPtrInstr, instruction.go:219-225
  | unsupported (t : TId)                                 -- newUnsupportedTypeInstr, instruction.go:213-217
  deriving DecidableEq, Repr

/-- `newGoTypeInstr`, /repo/instruction.go:117-132. -/
def newGoTypeInstr (E : Env) (t : TId) : Option Instr := (E t).special.map .goType

/-- `newMarshalerTypeInstr`, /repo/instruction.go:137-161. -/
def newMarshalerTypeInstr (E : Env) (t : TId) (canAddr : Bool) : Option Instr :=
  let m := (E t).meths
  let pm := (E t).pmeths
  let p := !isPtrK (E t).kind && canAddr
  if m.appendCtx then some (.marshaler .appendCtx t false)
  else if p && pm.appendCtx then some (.marshaler .appendCtx t true)
  else if m.append then some (.marshaler .append t false)
  else if p && pm.append then some (.marshaler .append t true)
  else if m.json then some (.marshaler .json t false)
  else if p && pm.json then some (.marshaler .json t true)
  else if m.text then some (.marshaler .text t false)
  else if p && pm.text then some (.marshaler .text t true)
  else none

/-- `newBasicTypeInstr` and `newStringInstr`, /repo/instruction.go:163-211. -/
def newBasicTypeInstr (k : Kind) (quoted : Bool) : Option Instr :=
  match k with
  | .bool => some (if quoted then .quoted .bool else .bool)
  | .string => some (if quoted then .quotedString else .string)
  | .int k => some (if quoted then .quoted (.int k) else .int k)
  | .float w => some (if quoted then .quoted (.float w) else .float w)
  | _ => none

/-- `etyp.Kind() == reflect.Uint8 && !pe.Implements(jsonMarshalerType) &&
!pe.Implements(textMarshalerType)`, /repo/instruction.go:339-343 and 353-357. -/
def isByteElem (E : Env) (e : TId) : Bool :=
  (E e).kind = .int .uint8 && !(E e).pmeths.json && !(E e).pmeths.text

/-- `isString(kt)`, /repo/types.go:40. -/
def isStringK : Kind → Bool | .string => true | _ => false

/-- The wrapping of the key instruction of a map, /repo/instruction.go:391-399. -/
def wrapKey (E : Env) (kt : TId) (ki : Instr) : Instr :=
  let ki := if !isStringK (E kt).kind && !(E kt).meths.text then .quoted ki else ki
  if (E kt).meths.text && isPtrK (E kt).kind then .nilText ki else ki

/-- The test of /repo/instruction.go:379. -/
def mapKeyOk (E : Env) (kt : TId) : Bool :=
  isStringK (E kt).kind || isInteger (E kt).kind || (E kt).meths.text

/-- `newInstruction`, /repo/instruction.go:85-115, with the kind-specific
constructors it calls (213-225, 251, 326-405). `none`: `fuel` was not enough. -/
def newInstruction (E : Env) : Nat → TId → Bool → Bool → Option Instr
  | 0, _, _, _ => none
  | fuel + 1, t, canAddr, quoted =>
    match newGoTypeInstr E t with
    | some i => some i
    | none =>
    match newMarshalerTypeInstr E t canAddr with
    | some i => some i
    | none =>
    match newBasicTypeInstr (E t).kind quoted with
    | some i => some i
    | none =>
    match (E t).kind with
    | .iface _ => some .iface
    | .struct _ => some (.struct t canAddr)
    | .map kt et =>
      if !mapKeyOk E kt then some (.unsupported t)
      else
        match (if isStringK (E kt).kind then some .string else newInstruction E fuel kt false false),
            newInstruction E fuel et false false with
        | some ki, some vi => some (.map t (wrapKey E kt ki) vi)
        | _, _ => none
    | .slice e =>
      if isByteElem E e then some .byteSlice
      else (newInstruction E fuel e true false).map (.slice · (E e).size)
    | .array n e => (newInstruction E fuel e canAddr false).map (.array · (E e).size n (isByteElem E e))
    | .ptr e => (newInstruction E fuel e true quoted).map .ptr
    | _ => some (.unsupported t)

/-- The functions returned by `emptyFuncOf`, /repo/types.go:101-185. -/
inductive EmptyFn
  | bool | string | int (k : IntK) | float (w : FWidth) | map | ptr | iface | slice | always | never
  deriving DecidableEq, Repr

/-- `emptyFuncOf`, /repo/types.go:101-185. The cache of /repo/types.go:88-96 maps a
type to this function of it. -/
def emptyFuncOf (k : Kind) : EmptyFn :=
  match k with
  | .bool => .bool
  | .string => .string
  | .int k => .int k
  | .float w => .float w
  | .map _ _ => .map
  | .ptr _ => .ptr
  | .iface _ => .iface
  | .slice _ => .slice
  | .array n _ => if n = 0 then .always else .never
  | _ => .never

/-- A field with the parts added by `newStructFieldsInstr` (/repo/instruction.go:297-320). -/
structure FInstr where
  fld : Fld
  omitNil : Bool
  omitNullMarshaler : Bool
  instr : Instr
  empty : Option EmptyFn
  deriving DecidableEq, Repr

/-- The loop body of `newStructFieldsInstr`, /repo/instruction.go:297-320. -/
def newFieldInstr (E : Env) (fuel : Nat) (t : TId) (canAddr : Bool) (f : Fld) : Option FInstr :=
  match typeByIndex E t f.index with
  | none => none
  | some ftyp =>
    let etyp := derefOnce E ftyp
    match newInstruction E fuel ftyp canAddr (f.quoted && isBasicK (E etyp).kind) with
    | none => none
    | some i => some
      { fld := f
        omitNil := f.omitNil && isNilable (E ftyp).kind
        omitNullMarshaler := f.omitNil && ((E ftyp).meths.json || (E ftyp).pmeths.json)
        instr := i
        empty := if f.omitEmpty then some (emptyFuncOf (E ftyp).kind) else none }

/-- `isInlined`, /repo/types.go:69-78 (struct nesting bounded by `fuel`). -/
def isInlined (E : Env) : Nat → TId → Bool
  | 0, _ => false
  | fuel + 1, t =>
    match (E t).kind with
    | .ptr _ | .map _ _ => true
    | .struct fs => match fs with | [f] => isInlined E fuel f.typ | _ => false
    | _ => false

/-- `newStructFieldsInstr`, /repo/instruction.go:286-324: the fields the closure
captures. The fast path for a struct without fields is in `encodeStruct`. -/
def structFieldsInstr (E : Env) (U : UnicodeTab) (grow : Grow) (sort : SortAlg) (fuel : Nat) (t : TId)
    (canAddr : Bool) : Option (List FInstr) :=
  match structFields E U grow sort fuel t with
  | none => none
  | some flds => flds.mapM (newFieldInstr E fuel t canAddr)

/-- `cachedInstr` without its cache, /repo/instruction.go:33-52. -/
def instrFor (E : Env) (fuel : Nat) (t : TId) : Option Instr :=
  match newInstruction E fuel t (isPtrK (E t).kind) false with
  | none => none
  | some i => some (if isInlined E fuel t then .inline i else i)

end Jettison.Model
