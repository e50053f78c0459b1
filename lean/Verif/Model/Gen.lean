import Verif.Model.Shared

/-!
# Instruction generation with its caches (/repo/instruction.go, /repo/struct.go:64-70, /repo/types.go:88-96)

The same code as in Model/Instr, as a program on the shared state.
-/

namespace Jettison.Model

/-- The instruction of a basic type (`newBasicTypeInstr`, /repo/instruction.go:163-204): the wrapper of
`wrapQuotedInstr` calls the instruction inside. -/
def CInstr.ofBasic : Instr → CInstr
  | .quoted i => .quoted (.leaf i)
  | i => .leaf i

/-- The wrapping of the key instruction of a map, /repo/instruction.go:391-399. -/
def wrapKeyC (E : Env) (kt : TId) (ki : CInstr) : CInstr :=
  let ki := if !isStringK (E kt).kind && !(E kt).meths.text then .quoted ki else ki
  if (E kt).meths.text && isPtrK (E kt).kind then .nilText ki else ki

/-- `cachedFields`, /repo/struct.go:64-70. -/
def cachedFields (W : World) (t : TId) : Prog (List Fld) := do
  match ← (Op.loadFields t).call with
  | some l => return l
  | none =>
    match structFields W.E W.U W.grow W.sort W.tfuel t with
    | none => .crash
    | some l => (Op.addFields t l).call

/-- `cachedEmptyFuncOf`, /repo/types.go:90-96. -/
def cachedEmptyFuncOf (W : World) (t : TId) : Prog EmptyFn := do
  match ← (Op.loadEmpty t).call with
  | some f => return f
  | none => (Op.addEmpty t (emptyFuncOf (W.E t).kind)).call

/-- The loop body of `newStructFieldsInstr`, /repo/instruction.go:297-320; `gen` is `newInstruction`. -/
def newFieldInstrP (W : World) (gen : TId → Bool → Bool → Prog CInstr) (t : TId) (canAddr : Bool) (f : Fld) : Prog CField :=
  match typeByIndex W.E t f.index with
  | none => .crash
  | some ftyp => do
    let etyp := derefOnce W.E ftyp
    let i ← gen ftyp canAddr (f.quoted && isBasicK (W.E etyp).kind)
    if f.omitEmpty then
      let e ← cachedEmptyFuncOf W ftyp
      return { fld := f, omitNil := f.omitNil && isNilable (W.E ftyp).kind
               omitNullMarshaler := f.omitNil && ((W.E ftyp).meths.json || (W.E ftyp).pmeths.json), instr := i, empty := some e }
    else
      return { fld := f, omitNil := f.omitNil && isNilable (W.E ftyp).kind
               omitNullMarshaler := f.omitNil && ((W.E ftyp).meths.json || (W.E ftyp).pmeths.json), instr := i, empty := none }

/-- The loop of `newStructFieldsInstr`, /repo/instruction.go:297-320. -/
def newFieldInstrsP (W : World) (gen : TId → Bool → Bool → Prog CInstr) (t : TId) (canAddr : Bool) : List Fld → Prog (List CField)
  | [] => .ret []
  | f :: fs => do
    let f' ← newFieldInstrP W gen t canAddr f
    let fs' ← newFieldInstrsP W gen t canAddr fs
    return f' :: fs'

/-- `newStructFieldsInstr`, /repo/instruction.go:286-324: what the closure captures. -/
def newStructFieldsP (W : World) (gen : TId → Bool → Bool → Prog CInstr) (t : TId) (canAddr : Bool) : Prog (Option (List CField)) :=
  if (fieldsOfK (W.E t).kind).length = 0 then .ret none
  else do
    let flds ← cachedFields W t
    let l ← newFieldInstrsP W gen t canAddr flds
    return some l

/-- `newStructInstr`, /repo/instruction.go:251-284. -/
def newStructInstrP (W : World) (gen : TId → Bool → Bool → Prog CInstr) (t : TId) (canAddr : Bool) : Prog CInstr := do
  match ← (Op.loadStruct (t, canAddr)).call with
  | some r => return .struct r
  | none =>
    match ← (Op.loadOrStore (t, canAddr)).call with
    | (.placeholder c, false) =>
      let l ← newStructFieldsP W gen t canAddr
      let f ← (Op.newClosure l).call
      (Op.setIns c f).call
      (Op.done c).call
      (Op.storeStruct (t, canAddr) f).call
      return .struct (.closure f)
    | (r, _) => return .struct r

/-- The key instruction of a map, /repo/instruction.go:386-390; `gen` is `newInstruction(kt, false, false)`. -/
def keyInstrP (E : Env) (kt : TId) (gen : Prog CInstr) : Prog CInstr :=
  if isStringK (E kt).kind then .ret (.leaf .string) else gen

/-- `newInstruction`, /repo/instruction.go:85-115, with the kind-specific constructors (213-225, 326-405).
`mkStruct` is `newStructInstr`; the number bounds the recursion over types up to the next struct. -/
def newInstructionK (W : World) (mkStruct : TId → Bool → Prog CInstr) : Nat → TId → Bool → Bool → Prog CInstr
  | 0, _, _, _ => .crash
  | fuel + 1, t, canAddr, quoted =>
    match newGoTypeInstr W.E t with
    | some i => .ret (.leaf i)
    | none =>
    match newMarshalerTypeInstr W.E t canAddr with
    | some i => .ret (.leaf i)
    | none =>
    match newBasicTypeInstr (W.E t).kind quoted with
    | some i => .ret (.ofBasic i)
    | none =>
    match (W.E t).kind with
    | .iface _ => .ret .iface
    | .struct _ => mkStruct t canAddr
    | .map kt et =>
      if !mapKeyOk W.E kt then .ret (.leaf (.unsupported t))
      else do
        let ki ← keyInstrP W.E kt (newInstructionK W mkStruct fuel kt false false)
        let vi ← newInstructionK W mkStruct fuel et false false
        return .map t (wrapKeyC W.E kt ki) vi
    | .slice e =>
      if isByteElem W.E e then .ret (.leaf .byteSlice)
      else do
        let i ← newInstructionK W mkStruct fuel e true false
        return .slice i (W.E e).size
    | .array n e => do
      let i ← newInstructionK W mkStruct fuel e canAddr false
      return .array i (W.E e).size n (isByteElem W.E e)
    | .ptr e => do
      let i ← newInstructionK W mkStruct fuel e true quoted
      return .ptr i
    | _ => .ret (.leaf (.unsupported t))

/-- `newInstruction` with `newStructInstr`; `g` bounds the nesting of structs being generated
(/repo/instruction.go:85-115, 251-284). -/
def newInstructionP (W : World) : Nat → TId → Bool → Bool → Prog CInstr
  | 0 => newInstructionK W (fun _ _ => .crash) W.tfuel
  | g + 1 => newInstructionK W (newStructInstrP W (newInstructionP W g)) W.tfuel

/-- `cachedInstr`, /repo/instruction.go:33-52, with `storeInstr` (65-79). The cache is loaded again to be
copied, so that entries stored in the meantime are kept and those stored later are lost. -/
def cachedInstr (W : World) (g : Nat) (t : TId) : Prog CInstr := do
  match ← (Op.loadInstr t).call with
  | some i => return i
  | none =>
    let i ← newInstructionP W g t (isPtrK (W.E t).kind) false
    let i := if isInlined W.E W.tfuel t then .inline i else i
    let m ← Op.loadCache.call
    (Op.storeCache ((t, i) :: m)).call
    return i

end Jettison.Model
