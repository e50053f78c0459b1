import Verif.Model.Api

/-!
# Model of the encoder as a conversation with the methods of the user

In Model/Encode the methods are a function that is fixed in advance. Here the encoder is what it
is for the methods: it calls one, waits for the result, and goes on. So methods may have state of
their own, and which methods are called, how often and in which order can be told. The functions
are those of Model/Encode (Proofs/Talk shows that they give the same results), with the calls made
explicit. The data encoded is not changed by the methods.
-/

namespace Jettison.Model
open Jettison.Spec (FWidth)

/-- A call of a method: at which step of the encoding, the method, its context, the type and the
place of its receiver, and the destination it is given (/repo/encode.go:682, 692, 700, 720). -/
structure Ask where
  path : Path
  kind : MethKind
  ctx : Option Ctx
  typ : TId
  recv : Loc
  dst : Bytes
  deriving DecidableEq, Repr

/-- An encoding under way: finished with a result, or calling a method. A method that panics gives
`MethRes.panic` (/repo/encode.go:682, 692, 700, 720). -/
inductive Talk (α : Type) where
  | done (a : α)
  | ask (q : Ask) (k : MethRes → Talk α)

namespace Talk

/-- One after the other: a call of an instruction and the statements after it, as in
/repo/encode.go:317. -/
def bind {α β : Type} : Talk α → (α → Talk β) → Talk β
  | .done a, f => f a
  | .ask q k, f => .ask q fun r => (k r).bind f

/-- `if err != nil { return dst, err }`, as in /repo/encode.go:317-320. -/
def andThen (c : Talk Res) (f : Bytes → Talk Res) : Talk Res :=
  c.bind fun
    | .ok b => f b
    | r => .done r

/-- The result, with methods that are a function fixed in advance, `Heap.meth` (/repo/encode.go:679-729). -/
def answer {α : Type} (meth : Path → MethKind → Option Ctx → TId → Loc → Bytes → MethRes) : Talk α → α
  | .done a => a
  | .ask q k => (k (meth q.path q.kind q.ctx q.typ q.recv q.dst)).answer meth

/-- The methods that are called then, in the order of the calls (/repo/encode.go:679-729). -/
def asked {α : Type} (meth : Path → MethKind → Option Ctx → TId → Loc → Bytes → MethRes) : Talk α → List Ask
  | .done _ => []
  | .ask q k => q :: (k (meth q.path q.kind q.ctx q.typ q.recv q.dst)).asked meth

/-- The result and the final state, with methods that read and change a state. A method does not
know at which step it is called (/repo/encode.go:679-729). -/
def play {σ α : Type} (meth : σ → MethKind → Option Ctx → TId → Loc → Bytes → MethRes × σ) : Talk α → σ → α × σ
  | .done a, s => (a, s)
  | .ask q k, s =>
    let r := meth s q.kind q.ctx q.typ q.recv q.dst
    (k r.1).play meth r.2

end Talk

/-- An instruction, /repo/instruction.go:19. -/
abbrev RecT := Path → Instr → Loc → Bytes → Talk Res

/-- Reading memory, as `withRead` (/repo/encode.go: dereferences of `p`). -/
def withReadT {α : Type} (x : Option α) (f : α → Talk Res) : Talk Res :=
  match x with
  | none => .done .bad
  | some a => f a

/-- The loop of `encodeStruct`, /repo/encode.go:195-260. -/
def structLoopT (m : Mem) (o : EncOpts) (rec : RecT) (path : Path) (p : Loc) : Nat → List FInstr → Bool → Bytes → Talk Res
  | _, [], first, dst => .done (.ok (if first then dst ++ b! "{}" else dst ++ b! "}"))
  | i, f :: fs, first, dst =>
    match fieldLoc m o f p with
    | none => .done .bad
    | some none => structLoopT m o rec path p (i + 1) fs first dst
    | some (some fp) =>
      let last := if first then dst.length + 1 else dst.length
      (rec (i :: path) f.instr fp (dst ++ (if first then b! "{" else b! ",") ++ fieldKey o f.fld.name)).andThen fun dst =>
        if f.omitNullMarshaler && endsNull dst then structLoopT m o rec path p (i + 1) fs false (dst.take last)
        else structLoopT m o rec path p (i + 1) fs false dst

/-- The loop of `encodeArray`, /repo/encode.go:313-327. -/
def arrayLoopT (rec : RecT) (path : Path) (ins : Instr) (es : Nat) (p : Loc) : Nat → Nat → Bytes → Talk Res
  | i, 0, dst => .done (.ok (if i = 0 then dst ++ b! "[]" else dst ++ b! "]"))
  | i, n + 1, dst =>
    (rec (i :: path) ins (p.add (i * es)) (dst ++ (if i = 0 then b! "[" else b! ","))).andThen fun dst =>
      arrayLoopT rec path ins es p (i + 1) n dst

/-- `encodeArray`, /repo/encode.go:307-328, with `encodeByteArrayAsString` (333-347). -/
def encodeArrayT (m : Mem) (o : EncOpts) (rec : RecT) (path : Path) (ins : Instr) (es len : Nat) (isba : Bool)
    (p : Loc) (dst : Bytes) : Talk Res :=
  if isba && bmHas o.flags .byteArrayAsString then
    withReadT (readBytesAt m len p) fun b =>
      .done (.ok (appendEscapedBytes (dst ++ b! "\"") b o.esc ++ b! "\""))
  else arrayLoopT rec path ins es p 0 len dst

/-- The loop of `encodeUnsortedMap`, /repo/encode.go:392-407, and of `encodeUnsortedSyncMap`, 511-527. -/
def unsortedLoopT {α : Type} (kf vf : Nat → α → Bytes → Talk Res) : Nat → List α → Bytes → Talk Res
  | _, [], dst => .done (.ok dst)
  | n, e :: es, dst =>
    (kf n e (if n ≠ 0 then dst ++ b! "," else dst)).andThen fun dst =>
      (vf n e (dst ++ b! ":")).andThen fun dst => unsortedLoopT kf vf (n + 1) es dst

/-- The loop of `encodeSortedMap`, /repo/encode.go:428-451, and of `encodeSortedSyncMap`, 545-570. -/
def sortedLoopT {α : Type} (kf vf : Nat → α → Bytes → Talk Res) : Nat → List α → Bytes → List (Bytes × Bytes) → Talk Coll
  | _, [], _, mel => .done (.ok mel)
  | n, e :: es, buf, mel =>
    (kf n e buf).bind fun
      | .ok buf1 =>
        if buf1.length < buf.length + 2 then .done (.stop .panic)
        else
          (vf n e (buf1 ++ b! ":")).bind fun
            | .ok buf2 =>
              if buf2.length < buf.length then .done (.stop .panic)
              else sortedLoopT kf vf (n + 1) es buf2
                (mel ++ [(slice buf1 (buf.length + 1) (buf1.length - 1), buf2.drop buf.length)])
            | r => .done (.stop r)
      | r => .done (.stop r)

/-- `encodeSortedMap`, /repo/encode.go:414-474, `encodeSortedSyncMap`, 533-589. -/
def encodeSortedT {α : Type} (sort : SortAlg) (kf vf : Nat → α → Bytes → Talk Res) (es : List α) (dst : Bytes) : Talk Res :=
  (sortedLoopT kf vf 0 es [] []).bind fun
    | .ok mel => .done (.ok (joinEntries true (sort kvLess mel) dst))
    | .stop (.fail e _) => .done (.fail e dst)
    | .stop r => .done r

/-- Lines 363-379 of `encodeMap` and 483-501 of `encodeSyncMap` in /repo/encode.go. -/
def encodeEntriesT {α : Type} (W : World) (o : EncOpts) (kf vf : Nat → α → Bytes → Talk Res) (es : List α) (dst : Bytes) : Talk Res :=
  let dst := dst ++ b! "{"
  (if bmHas o.flags .unsortedMap then unsortedLoopT kf vf 0 es dst else encodeSortedT W.sort kf vf es dst).andThen fun dst =>
    .done (.ok (dst ++ b! "}"))

/-- `encodeMap`, /repo/encode.go:349-380. -/
def encodeMapT (W : World) (m : Mem) (o : EncOpts) (rec : RecT) (path : Path) (ki vi : Instr) (p : Loc) (dst : Bytes) : Talk Res :=
  withReadT (readWord m p) fun a =>
    if a = 0 then .done (.ok (if bmHas o.flags .nilMapEmpty then dst ++ b! "{}" else dst ++ b! "null"))
    else withReadT (readMap m a) fun es =>
      if es.length = 0 then .done (.ok (dst ++ b! "{}"))
      else encodeEntriesT W o (fun n e dst => rec ((2 * n) :: path) ki (.heap e.1) dst)
        (fun n e dst => rec ((2 * n + 1) :: path) vi (.heap e.2) dst) (W.visit path es) dst

/-- `appendJSON`, /repo/json.go:185-192. -/
def appendJSONT (W : World) (rec : RecT) (path : Path) (v : Eface) (dst : Bytes) : Talk Res :=
  match v with
  | none => .done .panic
  | some (t, w) =>
    match instrFor W.E W.tfuel t with
    | none => .done .nofuel
    | some i => rec path i (.heap w) dst

/-- `appendSyncMapKey`, /repo/encode.go:591-629. -/
def appendSyncMapKeyT (W : World) (m : Mem) (o : EncOpts) (rec : RecT) (path : Path) (key : Eface) (dst : Bytes) : Talk Res :=
  match key with
  | none => .done (.fail .syncMapNilKey dst)
  | some (kt, w) =>
    let isStr := isStringK (W.E kt).kind
    let isInt := isInteger (W.E kt).kind
    let isTxt := (W.E kt).meths.text
    if !isStr && !isInt && !isTxt then .done (.fail (.syncMapKey kt) dst)
    else
      let quoted := !isStr && !isTxt
      if isStr then withReadT (readStr m (.heap w)) fun s => .done (.ok (encodeString s dst o.esc))
      else
        (appendJSONT W rec path key (if quoted then dst ++ b! "\"" else dst)).andThen fun dst =>
          .done (.ok (if quoted then dst ++ b! "\"" else dst))

/-- `encodeSyncMap`, /repo/encode.go:481-502. -/
def encodeSyncMapT (W : World) (m : Mem) (o : EncOpts) (rec : RecT) (path : Path) (p : Loc) (dst : Bytes) : Talk Res :=
  withReadT (readSyncMap m p) fun es =>
    encodeEntriesT W o (fun n e dst => appendSyncMapKeyT W m o rec ((2 * n) :: path) e.1 dst)
      (fun n e dst => appendJSONT W rec ((2 * n + 1) :: path) e.2 dst) (W.visit path es) dst

/-- `encodeAppendMarshalerCtx`, `encodeAppendMarshaler`, `encodeJSONMarshaler` and
`encodeTextMarshaler`, /repo/encode.go:679-729: the first two methods are given the destination,
the first one a context too. -/
def callMethT (W : World) (o : EncOpts) (path : Path) (m : MethKind) (t rt : TId) (w : Loc) (dst : Bytes) : Talk Res :=
  match m with
  | .appendCtx => .ask ⟨path, .appendCtx, o.ctx, rt, w, dst⟩ fun
      | .ok dst2 => .done (.ok dst2)
      | .err e => .done (.fail (.marshaler t .appendCtx (.user e)) dst)
      | .panic => .done .panic
  | .append => .ask ⟨path, .append, none, rt, w, dst⟩ fun
      | .ok dst2 => .done (.ok dst2)
      | .err e => .done (.fail (.marshaler t .append (.user e)) dst)
      | .panic => .done .panic
  | .json => .ask ⟨path, .json, none, rt, w, []⟩ fun
      | .ok b => .done (relayJSON W o t b dst)
      | .err e => .done (.fail (.marshaler t .json (.user e)) dst)
      | .panic => .done .panic
  | .text => .ask ⟨path, .text, none, rt, w, []⟩ fun
      | .ok b => .done (.ok (dst ++ b! "\"" ++ b ++ b! "\""))
      | .err e => .done (.fail (.marshaler t .text (.user e)) dst)
      | .panic => .done .panic

/-- The rest of `encodeMarshaler` once nil has been handled (/repo/encode.go:662-676). -/
def invokeMethT (W : World) (m : Mem) (o : EncOpts) (path : Path) (k : MethKind) (t : TId) (hasPtr : Bool) (p : Loc) (dst : Bytes) : Talk Res :=
  withReadT (receiver W m t hasPtr p) fun r =>
    match r with
    | none => .done .panic
    | some (rt, w) => callMethT W o path k t rt w dst

/-- `encodeMarshaler`, /repo/encode.go:631-677. -/
def encodeMarshalerT (W : World) (m : Mem) (o : EncOpts) (path : Path) (k : MethKind) (t : TId) (hasPtr : Bool) (p : Loc) (dst : Bytes) : Talk Res :=
  if !hasPtr then
    if isPtrK (W.E t).kind || (ifaceK (W.E t).kind).isSome then
      withReadT (firstWordNil m p) fun isNil =>
        if isNil then .done (.ok (dst ++ b! "null")) else invokeMethT W m o path k t hasPtr p dst
    else invokeMethT W m o path k t hasPtr p dst
  else if p = .heap 0 then .done (.ok (dst ++ b! "null"))
  else invokeMethT W m o path k (W.ptrTo t) hasPtr p dst

/-- The instructions of `newGoTypeInstr` (/repo/instruction.go:117-132). -/
def encodeSpecialT (W : World) (m : Mem) (o : EncOpts) (rec : RecT) (path : Path) (s : Special) (p : Loc) (dst : Bytes) : Talk Res :=
  match s with
  | .syncMap => encodeSyncMapT W m o rec path p dst
  | .time => withReadT (readTime m p) fun t =>
      .done ((encodeTime W.appendFormat t dst (bmHas o.flags .unixTime) o.layout).res .timeRange dst)
  | .duration => withReadT (readInt m .int64 p) fun v =>
      match v with
      | .int64 d => .done ((encodeDuration W.fmt W.df d dst o.durFmt).res (.unsupportedValue .f64 (durFloatOf W.df d o.durFmt)) dst)
      | _ => .done .bad
  | .number => withReadT (readStr m p) fun s =>
      .done (exceptRes (encodeNumber s dst (bmHas o.flags .noNumberValidation)) (.numberLiteral s) dst)
  | .rawMessage => withReadT (readByteSlice m p) fun v => .done (.ok (encodeRawMessage v dst o))

/-- One instruction: the closures of /repo/instruction.go and the functions of /repo/encode.go they
call, `encodeInterface` (65-74), `encodePointer` (185-190), `encodeStruct` (192-260), `encodeSlice` (262-276). -/
def execT (W : World) (m : Mem) (o : EncOpts) (rec : RecT) (path : Path) (i : Instr) (p : Loc) (dst : Bytes) : Talk Res :=
  match i with
  | .goType s => encodeSpecialT W m o rec path s p dst
  | .marshaler k t hasPtr => encodeMarshalerT W m o path k t hasPtr p dst
  | .bool => withReadT (readBool m p) fun b => .done (.ok (encodeBool b dst))
  | .int k => withReadT (readInt m k p) fun v => .done (.ok (encodeIntVal v dst))
  | .float w => withReadT (readFloat m w p) fun b => .done (exceptRes (appendFloat W.fmt dst w b) (.unsupportedValue w b) dst)
  | .string => withReadT (readStr m p) fun s => .done (.ok (encodeString s dst o.esc))
  | .quotedString => withReadT (readStr m p) fun s => .done (.ok (encodeQuotedString s dst o.esc))
  | .quoted i => (rec path i p (dst ++ b! "\"")).andThen fun dst => .done (.ok (dst ++ b! "\""))
  | .nilText i => withReadT (readWord m p) fun a =>
      if a = 0 then .done (.ok (dst ++ b! "\"\"")) else rec path i p dst
  | .inline i =>
    match p with
    | .heap w => rec path i (.tmp w) dst
    | .tmp _ => .done .bad
  | .iface => withReadT (readEface m p) fun v =>
      match v with
      | none => .done (.ok (dst ++ b! "null"))
      | some x => appendJSONT W rec path (some x) dst
  | .struct t canAddr =>
    if (fieldsOfK (W.E t).kind).length = 0 then .done (.ok (dst ++ b! "{}"))
    else
      match structFieldsInstr W.E W.U W.grow W.sort W.tfuel t canAddr with
      | none => .done .nofuel
      | some flds => structLoopT m o rec path p 0 flds true dst
  | .map _ ki vi => encodeMapT W m o rec path ki vi p dst
  | .byteSlice => withReadT (readByteSlice m p) fun b =>
      .done (.ok (encodeByteSlice b dst o.esc (bmHas o.flags .rawByteSlice)))
  | .slice ins es => withReadT (readSlice m p) fun (d, n) =>
      if d = 0 then .done (.ok (if bmHas o.flags .nilSliceEmpty then dst ++ b! "[]" else dst ++ b! "null"))
      else if n = 0 then .done (.ok (dst ++ b! "[]"))
      else encodeArrayT m o rec path ins es n false (.heap d) dst
  | .array ins es n isba => encodeArrayT m o rec path ins es n isba p dst
  | .ptr i => withReadT (readWord m p) fun a =>
      if a ≠ 0 then rec path i (.heap a) dst else .done (.ok (dst ++ b! "null"))
  | .unsupported t => .done (.fail (.unsupportedType t) dst)

/-- Running an instruction; `fuel` bounds the nesting depth (/repo/encode.go: instructions calling instructions). -/
def runT (W : World) (m : Mem) (o : EncOpts) : Nat → Path → Instr → Loc → Bytes → Talk Res
  | 0, _, _, _, _ => .done .nofuel
  | fuel + 1, path, i, p, dst => execT W m o (runT W m o fuel) path i p dst

/-- `MarshalOpts`, /repo/json.go:130-143, with `marshalJSON` (162-183). -/
def marshalT (W : World) (m : Mem) (n : Nat) (v : Eface) (opts : List (Option Opt)) : Talk Ret :=
  match v with
  | none => .done (.ret (some (b! "null")) none)
  | some x =>
    match prepare opts with
    | .error e => .done (.ret none (some (.invalidOption e)))
    | .ok o => (appendJSONT W (runT W m o n) [] (some x) []).bind fun r => .done (marshalRet r)

/-- `AppendOpts`, /repo/json.go:147-160, with `appendJSON` (185-192). -/
def appendT (W : World) (m : Mem) (n : Nat) (dst : Bytes) (v : Eface) (opts : List (Option Opt)) : Talk Ret :=
  match v with
  | none => .done (.ret (some (dst ++ b! "null")) none)
  | some x =>
    match prepare opts with
    | .error e => .done (.ret none (some (.invalidOption e)))
    | .ok o => (appendJSONT W (runT W m o n) [] (some x) dst).bind fun r => .done (appendRet r)

end Jettison.Model
