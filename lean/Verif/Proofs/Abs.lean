import Verif.Model.Encode
import Verif.Spec.Safe

/-!
# The encoder on values

`runV` is `run` with the reads of memory replaced by matches on a value. It is a
step of the proofs: Proofs/Refine shows that `run` on memory holding a value equals
`runV` on the value.
-/

namespace Jettison.Proofs
open Jettison.Model Jettison.Spec

/-- Recursive calls on values. -/
abbrev RecV := Path → Instr → Val → Bytes → Res

/-- The bytes of a list of `uint8` values. -/
def bytesOf : List Val → Option Bytes
  | [] => some []
  | .int (.uint8 b) :: t => (bytesOf t).map (b :: ·)
  | _ => none

/-- A byte slice value: `some none` is nil. -/
def byteSliceOf : Val → Option (Option Bytes)
  | .nil => some none
  | .slice vs => (bytesOf vs).map some
  | _ => none

/-- Following embedded structs and pointers to structs: `some none` at a nil pointer. -/
def follow : List Nat → Val → Option (Option Val)
  | [], v => some (some v)
  | i :: is, .struct vs =>
    match vs[i]? with
    | some .nil => some none
    | some (.ptr y) => follow is y
    | some y => follow is y
    | none => none
  | _ :: _, _ => none

/-- The value of the field at an index path. -/
def routeV (v : Val) (path : List Nat) : Option (Option Val) :=
  match follow path.dropLast v with
  | some (some (.struct vs)) =>
    match path.getLast? with
    | some i => match vs[i]? with | some x => some (some x) | none => none
    | none => none
  | some none => some none
  | _ => none

/-- A nil pointer, map, slice or interface; `none` for the other kinds. -/
def isNilV : Val → Option Bool
  | .nil => some true
  | .ptr _ | .map _ | .slice _ | .iface _ _ => some false
  | _ => none

/-- `EmptyFn.eval` on values. -/
def emptyV (f : EmptyFn) (v : Val) : Option Bool :=
  match f, v with
  | .bool, .bool b => some (!b)
  | .string, .str b => some (b.length == 0)
  | .int k, .int v => if v.kind = k then some v.isZero else none
  | .float w, .float w' b => if w' = w then some (fabs w b == 0) else none
  | .map, .nil => some true
  | .map, .map kvs => some (kvs.length == 0)
  | .ptr, .nil => some true
  | .ptr, .ptr _ => some false
  | .iface, .nil => some true
  | .iface, .iface _ _ => some false
  | .slice, .nil => some true
  | .slice, .slice vs => some (vs.length == 0)
  | .always, _ => some true
  | .never, _ => some false
  | _, _ => none

/-- `fieldLoc` on values. -/
def fieldV (o : EncOpts) (f : FInstr) (v : Val) : Option (Option Val) :=
  if o.isDeniedField f.fld.name then some none
  else
    match routeV v f.fld.index with
    | none => none
    | some none => some none
    | some (some x) =>
      match (if f.omitNil then isNilV x else some false) with
      | none => none
      | some true => some none
      | some false =>
        match (match f.empty with | some e => emptyV e x | none => some false) with
        | none => none
        | some true => some none
        | some false => some (some x)

/-- `structLoop` on values. -/
def structLoopV (o : EncOpts) (rec : RecV) (path : Path) (v : Val) : Nat → List FInstr → Bool → Bytes → Res
  | _, [], first, dst => .ok (if first then dst ++ b! "{}" else dst ++ b! "}")
  | i, f :: fs, first, dst =>
    match fieldV o f v with
    | none => .bad
    | some none => structLoopV o rec path v (i + 1) fs first dst
    | some (some x) =>
      let last := if first then dst.length + 1 else dst.length
      match rec (i :: path) f.instr x (dst ++ (if first then b! "{" else b! ",") ++ fieldKey o f.fld.name) with
      | .ok dst =>
        if f.omitNullMarshaler && endsNull dst then structLoopV o rec path v (i + 1) fs false (dst.take last)
        else structLoopV o rec path v (i + 1) fs false dst
      | r => r

/-- `arrayLoop` on values. -/
def arrayLoopV (rec : RecV) (path : Path) (ins : Instr) : Nat → List Val → Bytes → Res
  | i, [], dst => .ok (if i = 0 then dst ++ b! "[]" else dst ++ b! "]")
  | i, v :: vs, dst =>
    match rec (i :: path) ins v (dst ++ (if i = 0 then b! "[" else b! ",")) with
    | .ok dst => arrayLoopV rec path ins (i + 1) vs dst
    | r => r

/-- `encodeArray` on values. -/
def encodeArrayV (o : EncOpts) (rec : RecV) (path : Path) (ins : Instr) (isba : Bool) (vs : List Val)
    (dst : Bytes) : Res :=
  if isba && bmHas o.flags .byteArrayAsString then
    withRead (bytesOf vs) fun b => .ok (appendEscapedBytes (dst ++ b! "\"") b o.esc ++ b! "\"")
  else arrayLoopV rec path ins 0 vs dst

/-- `appendJSON` on values. -/
def appendJSONV (W : World) (rec : RecV) (path : Path) (v : Val) (dst : Bytes) : Res :=
  match v with
  | .nil => .panic
  | .iface t v =>
    match instrFor W.E W.tfuel t with
    | none => .nofuel
    | some i => rec path i v dst
  | _ => .bad

/-- `appendSyncMapKey` on values. -/
def appendSyncMapKeyV (W : World) (o : EncOpts) (rec : RecV) (path : Path) (key : Val) (dst : Bytes) : Res :=
  match key with
  | .nil => .fail .syncMapNilKey dst
  | .iface kt v =>
    let isStr := isStringK (W.E kt).kind
    let isInt := isInteger (W.E kt).kind
    let isTxt := (W.E kt).meths.text
    if !isStr && !isInt && !isTxt then .fail (.syncMapKey kt) dst
    else
      let quoted := !isStr && !isTxt
      if isStr then
        match v with
        | .str s => .ok (encodeString s dst o.esc)
        | _ => .bad
      else
        match appendJSONV W rec path (.iface kt v) (if quoted then dst ++ b! "\"" else dst) with
        | .ok dst => .ok (if quoted then dst ++ b! "\"" else dst)
        | r => r
  | _ => .bad

/-- The receiver of a method. -/
def receiverV (W : World) (t : TId) (hasPtr : Bool) (v : Val) : Option (TId × Val) :=
  match ifaceK (W.E t).kind with
  | some _ => match v with | .iface dt x => some (dt, x) | _ => none
  | none => some (t, if hasPtr then .ptr v else v)

/-- `encodeMarshaler` on values. -/
def encodeMarshalerV (W : World) (M : MethV) (o : EncOpts) (path : Path) (m : MethKind) (t : TId) (hasPtr : Bool)
    (v : Val) (dst : Bytes) : Res :=
  let t' := if hasPtr then W.ptrTo t else t
  let go := match receiverV W t' hasPtr v with
    | some (rt, x) => callMeth W o m t' (M path m · rt x ·) dst
    | none => .bad
  if !hasPtr && (isPtrK (W.E t).kind || (ifaceK (W.E t).kind).isSome) then
    match v with
    | .nil => .ok (dst ++ b! "null")
    | _ => go
  else go

/-- `encodeSpecial` on values. -/
def encodeSpecialV (W : World) (o : EncOpts) (rec : RecV) (path : Path) (s : Special) (v : Val) (dst : Bytes) : Res :=
  match s, v with
  | .syncMap, .smap kvs =>
    encodeEntries W o (fun n e dst => appendSyncMapKeyV W o rec ((2 * n) :: path) e.1 dst)
      (fun n e dst => appendJSONV W rec ((2 * n + 1) :: path) e.2 dst) (W.visit path kvs) dst
  | .time, .time t => (encodeTime W.appendFormat t dst (bmHas o.flags .unixTime) o.layout).res .timeRange dst
  | .duration, .int (.int64 d) => (encodeDuration W.fmt W.df d dst o.durFmt).res (.unsupportedValue .f64 (durFloatOf W.df d o.durFmt)) dst
  | .number, .str s => exceptRes (encodeNumber s dst (bmHas o.flags .noNumberValidation)) (.numberLiteral s) dst
  | .rawMessage, v => withRead (byteSliceOf v) fun b => .ok (encodeRawMessage b dst o)
  | _, _ => .bad

/-- `exec` on values. -/
def execV (W : World) (M : MethV) (o : EncOpts) (rec : RecV) (path : Path) (i : Instr) (v : Val) (dst : Bytes) : Res :=
  match i with
  | .goType s => encodeSpecialV W o rec path s v dst
  | .marshaler m t hasPtr => encodeMarshalerV W M o path m t hasPtr v dst
  | .bool => match v with | .bool b => .ok (encodeBool b dst) | _ => .bad
  | .int _ => match v with | .int v => .ok (encodeIntVal v dst) | _ => .bad
  | .float w => match v with
    | .float _ b => exceptRes (appendFloat W.fmt dst w b) (.unsupportedValue w b) dst
    | _ => .bad
  | .string => match v with | .str s => .ok (encodeString s dst o.esc) | _ => .bad
  | .quotedString => match v with | .str s => .ok (encodeQuotedString s dst o.esc) | _ => .bad
  | .quoted i =>
    match rec path i v (dst ++ b! "\"") with
    | .ok dst => .ok (dst ++ b! "\"")
    | r => r
  | .nilText i => match v with | .nil => .ok (dst ++ b! "\"\"") | v => rec path i v dst
  | .inline i => rec path i v dst
  | .iface => match v with
    | .nil => .ok (dst ++ b! "null")
    | v => appendJSONV W rec path v dst
  | .struct t canAddr =>
    if (fieldsOfK (W.E t).kind).length = 0 then .ok (dst ++ b! "{}")
    else
      match structFieldsInstr W.E W.U W.grow W.sort W.tfuel t canAddr with
      | none => .nofuel
      | some flds => structLoopV o rec path v 0 flds true dst
  | .map _ ki vi => match v with
    | .nil => .ok (if bmHas o.flags .nilMapEmpty then dst ++ b! "{}" else dst ++ b! "null")
    | .map kvs =>
      if kvs.length = 0 then .ok (dst ++ b! "{}")
      else encodeEntries W o (fun n e dst => rec ((2 * n) :: path) ki e.1 dst)
        (fun n e dst => rec ((2 * n + 1) :: path) vi e.2 dst) (W.visit path kvs) dst
    | _ => .bad
  | .byteSlice => withRead (byteSliceOf v) fun b => .ok (encodeByteSlice b dst o.esc (bmHas o.flags .rawByteSlice))
  | .slice ins _ => match v with
    | .nil => .ok (if bmHas o.flags .nilSliceEmpty then dst ++ b! "[]" else dst ++ b! "null")
    | .slice vs => if vs.length = 0 then .ok (dst ++ b! "[]") else encodeArrayV o rec path ins false vs dst
    | _ => .bad
  | .array ins _ _ isba => match v with | .array vs => encodeArrayV o rec path ins isba vs dst | _ => .bad
  | .ptr i => match v with
    | .nil => .ok (dst ++ b! "null")
    | .ptr v => rec path i v dst
    | _ => .bad
  | .unsupported t => .fail (.unsupportedType t) dst

/-- `run` on values. -/
def runV (W : World) (M : MethV) (o : EncOpts) : Nat → RecV
  | 0, _, _, _, _ => .nofuel
  | fuel + 1, path, i, v, dst => execV W M o (runV W M o fuel) path i v dst

end Jettison.Proofs
