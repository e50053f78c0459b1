import Verif.Model.Instr
import Verif.Model.Escape
import Verif.Model.Number
import Verif.Model.Float
import Verif.Model.Duration
import Verif.Model.Compact
import Verif.Model.Base64
import Verif.Model.Options

/-!
# Model of the encoder (/repo/encode.go)

`exec` is one instruction, with `rec` standing for the instructions it calls;
`run` ties the knot with a bound on the nesting depth. Destinations are byte
lists: the spare capacity of `dst` matters only in `encodeByteSlice`, which is
modelled in full in Model/Base64 (`appendBase64`).
-/

namespace Jettison.Model
open Jettison.Spec (FWidth)

/-- The error wrapped in a `MarshalerError`: the one the method returned (by its
identity) or a `SyntaxError` (/repo/encode.go:711-715). -/
inductive UErr | user (id : Nat) | syntax
  deriving DecidableEq, Repr

/-- The errors of an encoding, /repo/json.go and /repo/encode.go: `UnsupportedTypeError`
(/repo/instruction.go:215), `UnsupportedValueError` with the number (/repo/encode.go:157-160),
`MarshalerError` (684-722), the errors of /repo/encode.go:89, 113, 593 and 602. -/
inductive Err
  | unsupportedType (t : TId)
  | unsupportedValue (w : FWidth) (bits : Nat)
  | marshaler (t : TId) (m : MethKind) (e : UErr)
  | numberLiteral (s : Bytes)
  | timeRange
  | syncMapNilKey
  | syncMapKey (t : TId)
  deriving DecidableEq, Repr

/-- What a call can end in: a buffer, an error with the buffer at that point, a Go
panic, a misread of memory, or the bound on the nesting depth was too small. The results of an
`instruction`, /repo/instruction.go:19. -/
inductive Res
  | ok (b : Bytes)
  | fail (e : Err) (b : Bytes)
  | panic
  | bad
  | nofuel
  deriving DecidableEq, Repr

/-- The result of a method of the user, or its panic (/repo/encode.go:682, 692, 700, 720). -/
inductive MethRes
  | ok (b : Bytes)
  | err (id : Nat)
  | panic
  deriving DecidableEq, Repr

/-- The step of an encoding at which something happens, as the list of choices
leading to it from the root of the value. Only structs, arrays and maps add a
choice, so that different method calls and map iterations have different lists. The loops of
/repo/encode.go:202, 316, 392, 428, 511 and 545; the code has no such list. -/
abbrev Path := List Nat

/-- What an encoding depends on besides the value: the types (`ptrTo` is
`reflect.PtrTo`), the parts of the standard library and runtime the code calls, and
a bound for recursion over types. `order p n` is the order in which the runtime
visits the `n` entries of the map reached at step `p`. See /repo/encode.go, /repo/struct.go for the calls. -/
structure World where
  E : Env
  ptrTo : TId → TId
  U : UnicodeTab
  grow : Grow
  sort : SortAlg
  fmt : FloatFmt
  df : DurFloat
  appendFormat : GoTime → Bytes → Bytes
  jsonValid : Bytes → Bool
  order : Path → Nat → List Nat
  tfuel : Nat

/-- The memory of a call and the methods of the users. `meth p m ctx t w dst` is
the result of method `m` called at step `p` on the interface value `(t, w)`; it may
be different at every step, as for methods with state. Methods do not write to the
value being encoded; their panics unwind the call. `MarshalJSON` and
`MarshalText` get no destination: it is `[]` for them (/repo/unsafe.go, and the interfaces of /repo/json.go:10-27). -/
structure Heap where
  mem : Mem
  meth : Path → MethKind → Option Ctx → TId → Loc → Bytes → MethRes

/-- The recursive call: step, instruction, location, destination. An `instruction`, /repo/instruction.go:19. -/
abbrev Rec := Path → Instr → Loc → Bytes → Res

/-- Outcome of an encoder over bytes as an outcome of an instruction that returns
`dst` with the error `e` (/repo/encode.go:113, 157). -/
def BRes.res (r : BRes) (e : Err) (dst : Bytes) : Res :=
  match r with | .ok b => .ok b | .err => .fail e dst | .panic => .panic

/-- The same for the encoders that cannot panic (/repo/encode.go:89, 157). -/
def exceptRes (r : Except Unit Bytes) (e : Err) (dst : Bytes) : Res :=
  match r with | .ok b => .ok b | .error _ => .fail e dst

/-- Going on with the value read, or reporting the misread. The unsafe reads, as at /repo/encode.go:25. -/
def withRead {α : Type} (r : Option α) (f : α → Res) : Res :=
  match r with | some a => f a | none => .bad

/-- `encodeBool`, /repo/encode.go:24-29. -/
def encodeBool (b : Bool) (dst : Bytes) : Bytes := if b then dst ++ b! "true" else dst ++ b! "false"

/-- `encodeRawMessage`, /repo/encode.go:94-103. `none` is the nil slice. -/
def encodeRawMessage (v : Option Bytes) (dst : Bytes) (o : EncOpts) : Bytes :=
  match v with
  | none => dst ++ b! "null"
  | some v =>
    if bmHas o.flags .noCompact then dst ++ v
    else appendCompactJSON dst v (!bmHas o.flags .noHTMLEscaping)

/-- Whether an integer is 0 (/repo/types.go:111-154). -/
def IntVal.isZero : IntVal → Bool
  | .int v => v == 0 | .int8 v => v == 0 | .int16 v => v == 0 | .int32 v => v == 0 | .int64 v => v == 0
  | .uint v => v == 0 | .uint8 v => v == 0 | .uint16 v => v == 0 | .uint32 v => v == 0
  | .uint64 v => v == 0 | .uintptr v => v == 0

/-- `maplen` of the map word `a`, /repo/map.go:65-67: 0 for nil. -/
def mapLen (m : Mem) (a : Addr) : Option Nat :=
  if a = 0 then some 0 else (readMap m a).map List.length

/-- The functions of `emptyFuncOf`, /repo/types.go:101-185. -/
def EmptyFn.eval (m : Mem) (f : EmptyFn) (p : Loc) : Option Bool :=
  match f with
  | .bool => (readBool m p).map (!·)
  | .string => (readStr m p).map (·.length == 0)
  | .int k => (readInt m k p).map IntVal.isZero
  | .float w => (readFloat m w p).map fun b => fabs w b == 0
  | .map => match readWord m p with | some a => (mapLen m a).map (· == 0) | none => none
  | .ptr => (readWord m p).map (· == 0)
  | .iface => firstWordNil m p
  | .slice => (readSlice m p).map (·.2 == 0)
  | .always => some true
  | .never => some false

/-- Following the offset sequence of a field, /repo/encode.go:207-223: `some none`
when a nil pointer is met. -/
def walk (m : Mem) : List Seq → Loc → Option (Option Loc)
  | [], p => some (some p)
  | s :: ss, p =>
    if s.indir then
      match readWord m (p.add s.offset) with
      | none => none
      | some a => if a = 0 then some none else walk m ss (.heap a)
    else walk m ss (p.add s.offset)

/-- `len(dst) > 4 && bytes.Compare(dst[len(dst)-4:], []byte("null")) == 0`,
/repo/encode.go:252. -/
def endsNull (dst : Bytes) : Bool := decide (dst.length > 4) && dst.drop (dst.length - 4) = b! "null"

/-- Whether the field is left out at run time: `none` is a misread, `some none`
leaves the field out, `some (some fp)` encodes it from `fp`
(/repo/encode.go:204-235). -/
def fieldLoc (m : Mem) (o : EncOpts) (f : FInstr) (p : Loc) : Option (Option Loc) :=
  if o.isDeniedField f.fld.name then some none
  else
    match walk m f.fld.embedSeq p with
    | none => none
    | some none => some none
    | some (some fp) =>
      match (if f.omitNil then firstWordNil m fp else some false) with
      | none => none
      | some true => some none
      | some false =>
        match (match f.empty with | some e => e.eval m fp | none => some false) with
        | none => none
        | some true => some none
        | some false => some (some fp)

/-- The key written for a field, /repo/encode.go:236-239. -/
def fieldKey (o : EncOpts) (name : Bytes) : Bytes :=
  if bmHas o.flags .noHTMLEscaping then keyNonEsc name else keyEscHTML name

/-- The loop of `encodeStruct`, /repo/encode.go:195-260, from field `i` on; `first`
is `nxt == '{'`. `dst[:lastKeyOffset]` is a prefix of `dst` because instructions
only append. -/
def structLoop (H : Heap) (o : EncOpts) (rec : Rec) (path : Path) (p : Loc) :
    Nat → List FInstr → Bool → Bytes → Res
  | _, [], first, dst => .ok (if first then dst ++ b! "{}" else dst ++ b! "}")
  | i, f :: fs, first, dst =>
    match fieldLoc H.mem o f p with
    | none => .bad
    | some none => structLoop H o rec path p (i + 1) fs first dst
    | some (some fp) =>
      let last := if first then dst.length + 1 else dst.length
      match rec (i :: path) f.instr fp (dst ++ (if first then b! "{" else b! ",") ++ fieldKey o f.fld.name) with
      | .ok dst =>
        if f.omitNullMarshaler && endsNull dst then structLoop H o rec path p (i + 1) fs false (dst.take last)
        else structLoop H o rec path p (i + 1) fs false dst
      | r => r

/-- The loop of `encodeArray`, /repo/encode.go:313-327, from element `i` on, with
`n` elements left. -/
def arrayLoop (rec : Rec) (path : Path) (ins : Instr) (es : Nat) (p : Loc) : Nat → Nat → Bytes → Res
  | i, 0, dst => .ok (if i = 0 then dst ++ b! "[]" else dst ++ b! "]")
  | i, n + 1, dst =>
    match rec (i :: path) ins (p.add (i * es)) (dst ++ (if i = 0 then b! "[" else b! ",")) with
    | .ok dst => arrayLoop rec path ins es p (i + 1) n dst
    | r => r

/-- `encodeArray`, /repo/encode.go:307-328, with `encodeByteArrayAsString`
(333-347). -/
def encodeArray (H : Heap) (o : EncOpts) (rec : Rec) (path : Path) (ins : Instr) (es len : Nat) (isba : Bool)
    (p : Loc) (dst : Bytes) : Res :=
  if isba && bmHas o.flags .byteArrayAsString then
    withRead (readBytesAt H.mem len p) fun b =>
      .ok (appendEscapedBytes (dst ++ b! "\"") b o.esc ++ b! "\"")
  else arrayLoop rec path ins es p 0 len dst

/-- The loop of `encodeUnsortedMap`, /repo/encode.go:392-407, and of
`encodeUnsortedSyncMap`, 511-527, which differ in how a key and a value are
encoded (`kf`, `vf`, given the number of the iteration). -/
def unsortedLoop {α : Type} (kf vf : Nat → α → Bytes → Res) : Nat → List α → Bytes → Res
  | _, [], dst => .ok dst
  | n, e :: es, dst =>
    match kf n e (if n ≠ 0 then dst ++ b! "," else dst) with
    | .ok dst =>
      match vf n e (dst ++ b! ":") with
      | .ok dst => unsortedLoop kf vf (n + 1) es dst
      | r => r
    | r => r

/-- What the collecting loop of a sorted map gives: the entries, or the outcome
that stopped it (/repo/encode.go:428-452). -/
inductive Coll
  | ok (mel : List (Bytes × Bytes))
  | stop (r : Res)

/-- The loop of `encodeSortedMap`, /repo/encode.go:428-451, and of
`encodeSortedSyncMap`, 545-570. An entry is the key without its quotes and the
text of the member. The slice expression of line 437 (554) panics when the key text
is shorter than two bytes. -/
def sortedLoop {α : Type} (kf vf : Nat → α → Bytes → Res) : Nat → List α → Bytes → List (Bytes × Bytes) → Coll
  | _, [], _, mel => .ok mel
  | n, e :: es, buf, mel =>
    match kf n e buf with
    | .ok buf1 =>
      if buf1.length < buf.length + 2 then .stop .panic
      else
        match vf n e (buf1 ++ b! ":") with
        | .ok buf2 =>
          if buf2.length < buf.length then .stop .panic
          else sortedLoop kf vf (n + 1) es buf2
            (mel ++ [(slice buf1 (buf.length + 1) (buf1.length - 1), buf2.drop buf.length)])
        | r => .stop r
    | r => .stop r

/-- `for i, kv := range mel.s`, /repo/encode.go:459-464 and 578-583. -/
def joinEntries : Bool → List (Bytes × Bytes) → Bytes → Bytes
  | _, [], dst => dst
  | first, kv :: t, dst => joinEntries false t ((if first then dst else dst ++ b! ",") ++ kv.2)

/-- `mapElems.Less`, /repo/map.go:35: `bytes.Compare` is the bytewise order. -/
def kvLess (a b : Bytes × Bytes) : Bool := bytesLess a.1 b.1

/-- `encodeSortedMap`, /repo/encode.go:414-474, `encodeSortedSyncMap`, 533-589. The
pooled buffer and entry list start empty (Model/Calls). An error is returned with
`dst` as it was. -/
def encodeSorted {α : Type} (sort : SortAlg) (kf vf : Nat → α → Bytes → Res) (es : List α) (dst : Bytes) : Res :=
  match sortedLoop kf vf 0 es [] [] with
  | .ok mel => .ok (joinEntries true (sort kvLess mel) dst)
  | .stop (.fail e _) => .fail e dst
  | .stop r => r

/-- Lines 363-379 of `encodeMap` and 483-501 of `encodeSyncMap` in /repo/encode.go:
the entries between braces. -/
def encodeEntries {α : Type} (W : World) (o : EncOpts) (kf vf : Nat → α → Bytes → Res) (es : List α)
    (dst : Bytes) : Res :=
  let dst := dst ++ b! "{"
  match (if bmHas o.flags .unsortedMap then unsortedLoop kf vf 0 es dst else encodeSorted W.sort kf vf es dst) with
  | .ok dst => .ok (dst ++ b! "}")
  | r => r

/-- The entries in the order of the visit. `mapiternext`, /repo/map.go:57-63; `Range`, /repo/encode.go:511 and 545. -/
def World.visit {α : Type} (W : World) (path : Path) (es : List α) : List α :=
  (W.order path es.length).filterMap (es[·]?)

/-- `encodeMap`, /repo/encode.go:349-380. -/
def encodeMap (W : World) (H : Heap) (o : EncOpts) (rec : Rec) (path : Path) (ki vi : Instr) (p : Loc)
    (dst : Bytes) : Res :=
  withRead (readWord H.mem p) fun a =>
    if a = 0 then .ok (if bmHas o.flags .nilMapEmpty then dst ++ b! "{}" else dst ++ b! "null")
    else withRead (readMap H.mem a) fun es =>
      if es.length = 0 then .ok (dst ++ b! "{}")
      else encodeEntries W o (fun n e dst => rec ((2 * n) :: path) ki (.heap e.1) dst)
        (fun n e dst => rec ((2 * n + 1) :: path) vi (.heap e.2) dst) (W.visit path es) dst

/-- `appendJSON`, /repo/json.go:185-192. The nil interface has no type to look up:
`t.Kind()` panics (/repo/instruction.go:39). -/
def appendJSON (W : World) (rec : Rec) (path : Path) (v : Eface) (dst : Bytes) : Res :=
  match v with
  | none => .panic
  | some (t, w) =>
    match instrFor W.E W.tfuel t with
    | none => .nofuel
    | some i => rec path i (.heap w) dst

/-- `appendSyncMapKey`, /repo/encode.go:591-629. -/
def appendSyncMapKey (W : World) (H : Heap) (o : EncOpts) (rec : Rec) (path : Path) (key : Eface) (dst : Bytes) : Res :=
  match key with
  | none => .fail .syncMapNilKey dst
  | some (kt, w) =>
    let isStr := isStringK (W.E kt).kind
    let isInt := isInteger (W.E kt).kind
    let isTxt := (W.E kt).meths.text
    if !isStr && !isInt && !isTxt then .fail (.syncMapKey kt) dst
    else
      let quoted := !isStr && !isTxt
      if isStr then withRead (readStr H.mem (.heap w)) fun s => .ok (encodeString s dst o.esc)
      else
        match appendJSON W rec path key (if quoted then dst ++ b! "\"" else dst) with
        | .ok dst => .ok (if quoted then dst ++ b! "\"" else dst)
        | r => r

/-- `encodeSyncMap`, /repo/encode.go:481-502. -/
def encodeSyncMap (W : World) (H : Heap) (o : EncOpts) (rec : Rec) (path : Path) (p : Loc) (dst : Bytes) : Res :=
  withRead (readSyncMap H.mem p) fun es =>
    encodeEntries W o (fun n e dst => appendSyncMapKey W H o rec ((2 * n) :: path) e.1 dst)
      (fun n e dst => appendJSON W rec ((2 * n + 1) :: path) e.2 dst) (W.visit path es) dst

/-- The result `b` of `MarshalJSON` for type `t`, /repo/encode.go:704-716. -/
def relayJSON (W : World) (o : EncOpts) (t : TId) (b dst : Bytes) : Res :=
  if bmHas o.flags .noCompact then .ok (dst ++ b)
  else if !W.jsonValid b then .fail (.marshaler t .json .syntax) dst
  else .ok (appendCompactJSON dst b (!bmHas o.flags .noHTMLEscaping))

/-- `encodeAppendMarshalerCtx`, `encodeAppendMarshaler`, `encodeJSONMarshaler` and
`encodeTextMarshaler`, /repo/encode.go:679-729; `call` is the method of the
receiver, given its context and destination. -/
def callMeth (W : World) (o : EncOpts) (m : MethKind) (t : TId) (call : Option Ctx → Bytes → MethRes)
    (dst : Bytes) : Res :=
  match m with
  | .appendCtx =>
    match call o.ctx dst with
    | .ok dst2 => .ok dst2
    | .err e => .fail (.marshaler t .appendCtx (.user e)) dst
    | .panic => .panic
  | .append =>
    match call none dst with
    | .ok dst2 => .ok dst2
    | .err e => .fail (.marshaler t .append (.user e)) dst
    | .panic => .panic
  | .json =>
    match call none [] with
    | .ok b => relayJSON W o t b dst
    | .err e => .fail (.marshaler t .json (.user e)) dst
    | .panic => .panic
  | .text =>
    match call none [] with
    | .ok b => .ok (dst ++ b! "\"" ++ b ++ b! "\"")
    | .err e => .fail (.marshaler t .text (.user e)) dst
    | .panic => .panic

/-- `t.Kind() == reflect.Interface`, with `t.NumMethod()` (/repo/encode.go:664-668). -/
def ifaceK : Kind → Option Nat | .iface n => some n | _ => none

/-- The interface value handed to the method, /repo/encode.go:664-675 with
`packEface` (/repo/unsafe.go:41-56): `none` is a misread, `some none` a nil
interface. -/
def receiver (W : World) (m : Mem) (t : TId) (hasPtr : Bool) (p : Loc) : Option (Option (TId × Loc)) :=
  match ifaceK (W.E t).kind with
  | some n => (if n = 0 then readEface m p else readIface m p).map (·.map fun x => (x.1, .heap x.2))
  | none =>
    if isPtrK (W.E t).kind && !hasPtr then (readWord m p).map fun a => some (t, .heap a)
    else some (some (t, p))

/-- The rest of `encodeMarshaler` once nil has been handled. The type assertion
panics on a nil interface (/repo/encode.go:662-676). -/
def invokeMeth (W : World) (H : Heap) (o : EncOpts) (path : Path) (m : MethKind) (t : TId) (hasPtr : Bool) (p : Loc)
    (dst : Bytes) : Res :=
  withRead (receiver W H.mem t hasPtr p) fun r =>
    match r with
    | none => .panic
    | some (rt, w) => callMeth W o m t (H.meth path m · rt w ·) dst

/-- `encodeMarshaler`, /repo/encode.go:631-677. -/
def encodeMarshaler (W : World) (H : Heap) (o : EncOpts) (path : Path) (m : MethKind) (t : TId) (hasPtr : Bool)
    (p : Loc) (dst : Bytes) : Res :=
  if !hasPtr then
    if isPtrK (W.E t).kind || (ifaceK (W.E t).kind).isSome then
      withRead (firstWordNil H.mem p) fun isNil =>
        if isNil then .ok (dst ++ b! "null") else invokeMeth W H o path m t hasPtr p dst
    else invokeMeth W H o path m t hasPtr p dst
  else if p = .heap 0 then .ok (dst ++ b! "null")
  else invokeMeth W H o path m (W.ptrTo t) hasPtr p dst

/-- The instructions of `newGoTypeInstr` (/repo/instruction.go:117-132). -/
def encodeSpecial (W : World) (H : Heap) (o : EncOpts) (rec : Rec) (path : Path) (s : Special) (p : Loc)
    (dst : Bytes) : Res :=
  match s with
  | .syncMap => encodeSyncMap W H o rec path p dst
  | .time => withRead (readTime H.mem p) fun t =>
      (encodeTime W.appendFormat t dst (bmHas o.flags .unixTime) o.layout).res .timeRange dst
  | .duration => withRead (readInt H.mem .int64 p) fun v =>
      match v with
      | .int64 d => (encodeDuration W.fmt W.df d dst o.durFmt).res (.unsupportedValue .f64 (durFloatOf W.df d o.durFmt)) dst
      | _ => .bad
  | .number => withRead (readStr H.mem p) fun s =>
      exceptRes (encodeNumber s dst (bmHas o.flags .noNumberValidation)) (.numberLiteral s) dst
  | .rawMessage => withRead (readByteSlice H.mem p) fun v => .ok (encodeRawMessage v dst o)

/-- One instruction, with `rec` for the instructions it calls. The closures of
/repo/instruction.go and the functions of /repo/encode.go they call:
`encodeInterface` (65-74), `encodePointer` (185-190), `encodeStruct` (192-260) with
the fast path of instruction.go:287-292, `encodeSlice` (262-276). -/
def exec (W : World) (H : Heap) (o : EncOpts) (rec : Rec) (path : Path) (i : Instr) (p : Loc) (dst : Bytes) : Res :=
  match i with
  | .goType s => encodeSpecial W H o rec path s p dst
  | .marshaler m t hasPtr => encodeMarshaler W H o path m t hasPtr p dst
  | .bool => withRead (readBool H.mem p) fun b => .ok (encodeBool b dst)
  | .int k => withRead (readInt H.mem k p) fun v => .ok (encodeIntVal v dst)
  | .float w => withRead (readFloat H.mem w p) fun b => exceptRes (appendFloat W.fmt dst w b) (.unsupportedValue w b) dst
  | .string => withRead (readStr H.mem p) fun s => .ok (encodeString s dst o.esc)
  | .quotedString => withRead (readStr H.mem p) fun s => .ok (encodeQuotedString s dst o.esc)
  | .quoted i =>
    match rec path i p (dst ++ b! "\"") with
    | .ok dst => .ok (dst ++ b! "\"")
    | r => r
  | .nilText i => withRead (readWord H.mem p) fun a =>
      if a = 0 then .ok (dst ++ b! "\"\"") else rec path i p dst
  | .inline i =>
    match p with
    | .heap w => rec path i (.tmp w) dst
    | .tmp _ => .bad
  | .iface => withRead (readEface H.mem p) fun v =>
      match v with
      | none => .ok (dst ++ b! "null")
      | some x => appendJSON W rec path (some x) dst
  | .struct t canAddr =>
    if (fieldsOfK (W.E t).kind).length = 0 then .ok (dst ++ b! "{}")
    else
      match structFieldsInstr W.E W.U W.grow W.sort W.tfuel t canAddr with
      | none => .nofuel
      | some flds => structLoop H o rec path p 0 flds true dst
  | .map _ ki vi => encodeMap W H o rec path ki vi p dst
  | .byteSlice => withRead (readByteSlice H.mem p) fun b =>
      .ok (encodeByteSlice b dst o.esc (bmHas o.flags .rawByteSlice))
  | .slice ins es => withRead (readSlice H.mem p) fun (d, n) =>
      if d = 0 then .ok (if bmHas o.flags .nilSliceEmpty then dst ++ b! "[]" else dst ++ b! "null")
      else if n = 0 then .ok (dst ++ b! "[]")
      else encodeArray H o rec path ins es n false (.heap d) dst
  | .array ins es n isba => encodeArray H o rec path ins es n isba p dst
  | .ptr i => withRead (readWord H.mem p) fun a =>
      if a ≠ 0 then rec path i (.heap a) dst else .ok (dst ++ b! "null")
  | .unsupported t => .fail (.unsupportedType t) dst

/-- Running an instruction; `fuel` bounds the nesting depth (/repo/encode.go: instructions calling instructions). -/
def run (W : World) (H : Heap) (o : EncOpts) : Nat → Path → Instr → Loc → Bytes → Res
  | 0, _, _, _, _ => .nofuel
  | fuel + 1, path, i, p, dst => exec W H o (run W H o fuel) path i p dst

end Jettison.Model
