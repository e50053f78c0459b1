import Verif.Model.Api
import Verif.Model.Talk

/-!
# Model of the encoder over data that changes while it is encoded

In Model/Encode and Model/Talk the data encoded stays as it is during a call. Here the methods of
the users may change it: memory is part of a state, every read sees the memory of that moment, and
every call of a method leads to a new state. The iterator of the Go runtime over a map, and `Range`
over a `sync.Map`, see the changes too: which entry comes next is asked each time. The functions are
those of Model/Encode with the state threaded through (Props/Live shows that they give the same
results when the data does not change).
-/

namespace Jettison.Model
open Jettison.Spec (FWidth)

/-- What surrounds a call: its memory, the methods of the users, and the iterators of the Go runtime.
`entry s path n a` is the entry number `n` of an iteration over the map object at `a`
(/repo/map.go:57-63, /repo/encode.go:392, 428), `sentry` that of a `Range` over the `sync.Map` at a
place (/repo/encode.go:511, 545); `path` tells the iterations apart. -/
structure Around (σ : Type) where
  mem : σ → Mem
  meth : σ → MethKind → Option Ctx → TId → Loc → Bytes → MethRes × σ
  entry : σ → Path → Nat → Addr → Option (Addr × Addr)
  sentry : σ → Path → Nat → Loc → Option (Eface × Eface)

/-- Statements of the encoder: from a state, a result and the state afterwards (/repo/instruction.go:19). -/
abbrev Act (σ : Type) := σ → Res × σ

/-- An instruction, /repo/instruction.go:19. -/
abbrev RecL (σ : Type) := Path → Instr → Loc → Bytes → Act σ

variable {σ : Type}

/-- Nothing is called. As /repo/encode.go:24-30. -/
def Act.ret (r : Res) : Act σ := fun s => (r, s)

/-- `if err != nil { return dst, err }`, as in /repo/encode.go:317-320. -/
def Act.andThen (c : Act σ) (f : Bytes → Act σ) : Act σ := fun s =>
  match c s with
  | (.ok b, s1) => f b s1
  | (r, s1) => (r, s1)

/-- Reading the memory of the moment (/repo/encode.go: dereferences of `p`). -/
def withReadL {α : Type} (x : σ → Option α) (f : α → Act σ) : Act σ := fun s =>
  match x s with
  | none => (.bad, s)
  | some a => f a s

/-- The loop of `encodeStruct`, /repo/encode.go:195-260. -/
def structLoopL (P : Around σ) (o : EncOpts) (rec : RecL σ) (path : Path) (p : Loc) : Nat → List FInstr → Bool → Bytes → Act σ
  | _, [], first, dst => .ret (.ok (if first then dst ++ b! "{}" else dst ++ b! "}"))
  | i, f :: fs, first, dst =>
    withReadL (fun s => fieldLoc (P.mem s) o f p) fun
      | none => structLoopL P o rec path p (i + 1) fs first dst
      | some fp =>
        (rec (i :: path) f.instr fp (dst ++ (if first then b! "{" else b! ",") ++ fieldKey o f.fld.name)).andThen fun dst' =>
          if f.omitNullMarshaler && endsNull dst' then
            structLoopL P o rec path p (i + 1) fs false (dst'.take (if first then dst.length + 1 else dst.length))
          else structLoopL P o rec path p (i + 1) fs false dst'

/-- The loop of `encodeArray`, /repo/encode.go:313-327. -/
def arrayLoopL (rec : RecL σ) (path : Path) (ins : Instr) (es : Nat) (p : Loc) : Nat → Nat → Bytes → Act σ
  | i, 0, dst => .ret (.ok (if i = 0 then dst ++ b! "[]" else dst ++ b! "]"))
  | i, n + 1, dst =>
    (rec (i :: path) ins (p.add (i * es)) (dst ++ (if i = 0 then b! "[" else b! ","))).andThen fun dst =>
      arrayLoopL rec path ins es p (i + 1) n dst

/-- `encodeArray`, /repo/encode.go:307-328, with `encodeByteArrayAsString` (333-347). -/
def encodeArrayL (P : Around σ) (o : EncOpts) (rec : RecL σ) (path : Path) (ins : Instr) (es len : Nat) (isba : Bool)
    (p : Loc) (dst : Bytes) : Act σ :=
  if isba && bmHas o.flags .byteArrayAsString then
    withReadL (fun s => readBytesAt (P.mem s) len p) fun b =>
      .ret (.ok (appendEscapedBytes (dst ++ b! "\"") b o.esc ++ b! "\""))
  else arrayLoopL rec path ins es p 0 len dst

/-- The loop of `encodeUnsortedMap`, /repo/encode.go:392-407, and of `encodeUnsortedSyncMap`, 511-527.
`next` is the iterator; the first argument bounds the number of entries. -/
def unsortedLoopL {α : Type} (next : σ → Nat → Option α) (kf vf : Nat → α → Bytes → Act σ) : Nat → Nat → Bytes → Act σ
  | 0, _, _ => .ret .nofuel
  | lim + 1, n, dst => fun s =>
    match next s n with
    | none => (.ok dst, s)
    | some e =>
      ((kf n e (if n ≠ 0 then dst ++ b! "," else dst)).andThen fun dst =>
        (vf n e (dst ++ b! ":")).andThen fun dst => unsortedLoopL next kf vf lim (n + 1) dst) s

/-- The loop of `encodeSortedMap`, /repo/encode.go:428-451, and of `encodeSortedSyncMap`, 545-570. -/
def sortedLoopL {α : Type} (next : σ → Nat → Option α) (kf vf : Nat → α → Bytes → Act σ) :
    Nat → Nat → Bytes → List (Bytes × Bytes) → σ → Coll × σ
  | 0, _, _, _, s => (.stop .nofuel, s)
  | lim + 1, n, buf, mel, s =>
    match next s n with
    | none => (.ok mel, s)
    | some e =>
      match kf n e buf s with
      | (.ok buf1, s1) =>
        if buf1.length < buf.length + 2 then (.stop .panic, s1)
        else
          match vf n e (buf1 ++ b! ":") s1 with
          | (.ok buf2, s2) =>
            if buf2.length < buf.length then (.stop .panic, s2)
            else sortedLoopL next kf vf lim (n + 1) buf2 (mel ++ [(slice buf1 (buf.length + 1) (buf1.length - 1), buf2.drop buf.length)]) s2
          | (r, s2) => (.stop r, s2)
      | (r, s1) => (.stop r, s1)

/-- `encodeSortedMap`, /repo/encode.go:414-474, `encodeSortedSyncMap`, 533-589. -/
def encodeSortedL {α : Type} (sort : SortAlg) (next : σ → Nat → Option α) (kf vf : Nat → α → Bytes → Act σ) (lim : Nat) (dst : Bytes) : Act σ := fun s =>
  match sortedLoopL next kf vf lim 0 [] [] s with
  | (.ok mel, s1) => (.ok (joinEntries true (sort kvLess mel) dst), s1)
  | (.stop (.fail e _), s1) => (.fail e dst, s1)
  | (.stop r, s1) => (r, s1)

/-- Lines 363-379 of `encodeMap` and 483-501 of `encodeSyncMap` in /repo/encode.go. -/
def encodeEntriesL {α : Type} (W : World) (o : EncOpts) (lim : Nat) (next : σ → Nat → Option α) (kf vf : Nat → α → Bytes → Act σ) (dst : Bytes) : Act σ :=
  (if bmHas o.flags .unsortedMap then unsortedLoopL next kf vf lim 0 (dst ++ b! "{") else encodeSortedL W.sort next kf vf lim (dst ++ b! "{")).andThen
    fun dst => .ret (.ok (dst ++ b! "}"))

/-- `encodeMap`, /repo/encode.go:349-380. -/
def encodeMapL (W : World) (P : Around σ) (o : EncOpts) (lim : Nat) (rec : RecL σ) (path : Path) (ki vi : Instr) (p : Loc) (dst : Bytes) : Act σ :=
  withReadL (fun s => readWord (P.mem s) p) fun a =>
    if a = 0 then .ret (.ok (if bmHas o.flags .nilMapEmpty then dst ++ b! "{}" else dst ++ b! "null"))
    else withReadL (fun s => readMap (P.mem s) a) fun es =>
      if es.length = 0 then .ret (.ok (dst ++ b! "{}"))
      else encodeEntriesL W o lim (fun s n => P.entry s path n a) (fun n e dst => rec ((2 * n) :: path) ki (.heap e.1) dst)
        (fun n e dst => rec ((2 * n + 1) :: path) vi (.heap e.2) dst) dst

/-- `appendJSON`, /repo/json.go:185-192. -/
def appendJSONL (W : World) (rec : RecL σ) (path : Path) (v : Eface) (dst : Bytes) : Act σ :=
  match v with
  | none => .ret .panic
  | some (t, w) =>
    match instrFor W.E W.tfuel t with
    | none => .ret .nofuel
    | some i => rec path i (.heap w) dst

/-- `appendSyncMapKey`, /repo/encode.go:591-629. -/
def appendSyncMapKeyL (W : World) (P : Around σ) (o : EncOpts) (rec : RecL σ) (path : Path) (key : Eface) (dst : Bytes) : Act σ :=
  match key with
  | none => .ret (.fail .syncMapNilKey dst)
  | some (kt, w) =>
    let isStr := isStringK (W.E kt).kind
    let isInt := isInteger (W.E kt).kind
    let isTxt := (W.E kt).meths.text
    if !isStr && !isInt && !isTxt then .ret (.fail (.syncMapKey kt) dst)
    else
      let quoted := !isStr && !isTxt
      if isStr then withReadL (fun s => readStr (P.mem s) (.heap w)) fun x => .ret (.ok (encodeString x dst o.esc))
      else
        (appendJSONL W rec path key (if quoted then dst ++ b! "\"" else dst)).andThen fun dst =>
          .ret (.ok (if quoted then dst ++ b! "\"" else dst))

/-- `encodeSyncMap`, /repo/encode.go:481-502. -/
def encodeSyncMapL (W : World) (P : Around σ) (o : EncOpts) (lim : Nat) (rec : RecL σ) (path : Path) (p : Loc) (dst : Bytes) : Act σ :=
  withReadL (fun s => readSyncMap (P.mem s) p) fun _ =>
    encodeEntriesL W o lim (fun s n => P.sentry s path n p) (fun n e dst => appendSyncMapKeyL W P o rec ((2 * n) :: path) e.1 dst)
      (fun n e dst => appendJSONL W rec ((2 * n + 1) :: path) e.2 dst) dst

/-- `encodeAppendMarshalerCtx`, `encodeAppendMarshaler`, `encodeJSONMarshaler` and
`encodeTextMarshaler`, /repo/encode.go:679-729. The method is called once, so its answer determines
the result as in `callMeth`. -/
def callMethL (W : World) (P : Around σ) (o : EncOpts) (k : MethKind) (t rt : TId) (w : Loc) (dst : Bytes) : Act σ := fun s =>
  let r := match k with
    | .appendCtx => P.meth s .appendCtx o.ctx rt w dst
    | .append => P.meth s .append none rt w dst
    | .json => P.meth s .json none rt w []
    | .text => P.meth s .text none rt w []
  (callMeth W o k t (fun _ _ => r.1) dst, r.2)

/-- The rest of `encodeMarshaler` once nil has been handled (/repo/encode.go:662-676). -/
def invokeMethL (W : World) (P : Around σ) (o : EncOpts) (k : MethKind) (t : TId) (hasPtr : Bool) (p : Loc) (dst : Bytes) : Act σ :=
  withReadL (fun s => receiver W (P.mem s) t hasPtr p) fun
    | none => .ret .panic
    | some (rt, w) => callMethL W P o k t rt w dst

/-- `encodeMarshaler`, /repo/encode.go:631-677. -/
def encodeMarshalerL (W : World) (P : Around σ) (o : EncOpts) (k : MethKind) (t : TId) (hasPtr : Bool) (p : Loc) (dst : Bytes) : Act σ :=
  if !hasPtr then
    if isPtrK (W.E t).kind || (ifaceK (W.E t).kind).isSome then
      withReadL (fun s => firstWordNil (P.mem s) p) fun isNil =>
        if isNil then .ret (.ok (dst ++ b! "null")) else invokeMethL W P o k t hasPtr p dst
    else invokeMethL W P o k t hasPtr p dst
  else if p = .heap 0 then .ret (.ok (dst ++ b! "null"))
  else invokeMethL W P o k (W.ptrTo t) hasPtr p dst

/-- The instructions of `newGoTypeInstr` (/repo/instruction.go:117-132). -/
def encodeSpecialL (W : World) (P : Around σ) (o : EncOpts) (lim : Nat) (rec : RecL σ) (path : Path) (k : Special) (p : Loc) (dst : Bytes) : Act σ :=
  match k with
  | .syncMap => encodeSyncMapL W P o lim rec path p dst
  | .time => withReadL (fun s => readTime (P.mem s) p) fun t =>
      .ret ((encodeTime W.appendFormat t dst (bmHas o.flags .unixTime) o.layout).res .timeRange dst)
  | .duration => withReadL (fun s => readInt (P.mem s) .int64 p) fun
      | .int64 d => .ret ((encodeDuration W.fmt W.df d dst o.durFmt).res (.unsupportedValue .f64 (durFloatOf W.df d o.durFmt)) dst)
      | _ => .ret .bad
  | .number => withReadL (fun s => readStr (P.mem s) p) fun x =>
      .ret (exceptRes (encodeNumber x dst (bmHas o.flags .noNumberValidation)) (.numberLiteral x) dst)
  | .rawMessage => withReadL (fun s => readByteSlice (P.mem s) p) fun v => .ret (.ok (encodeRawMessage v dst o))

/-- One instruction: the closures of /repo/instruction.go and the functions of /repo/encode.go they
call, `encodeInterface` (65-74), `encodePointer` (185-190), `encodeStruct` (192-260), `encodeSlice` (262-276). -/
def execL (W : World) (P : Around σ) (o : EncOpts) (lim : Nat) (rec : RecL σ) (path : Path) (i : Instr) (p : Loc) (dst : Bytes) : Act σ :=
  match i with
  | .goType k => encodeSpecialL W P o lim rec path k p dst
  | .marshaler k t hasPtr => encodeMarshalerL W P o k t hasPtr p dst
  | .bool => withReadL (fun s => readBool (P.mem s) p) fun b => .ret (.ok (encodeBool b dst))
  | .int k => withReadL (fun s => readInt (P.mem s) k p) fun v => .ret (.ok (encodeIntVal v dst))
  | .float w => withReadL (fun s => readFloat (P.mem s) w p) fun b => .ret (exceptRes (appendFloat W.fmt dst w b) (.unsupportedValue w b) dst)
  | .string => withReadL (fun s => readStr (P.mem s) p) fun x => .ret (.ok (encodeString x dst o.esc))
  | .quotedString => withReadL (fun s => readStr (P.mem s) p) fun x => .ret (.ok (encodeQuotedString x dst o.esc))
  | .quoted i => (rec path i p (dst ++ b! "\"")).andThen fun dst => .ret (.ok (dst ++ b! "\""))
  | .nilText i => withReadL (fun s => readWord (P.mem s) p) fun a =>
      if a = 0 then .ret (.ok (dst ++ b! "\"\"")) else rec path i p dst
  | .inline i =>
    match p with
    | .heap w => rec path i (.tmp w) dst
    | .tmp _ => .ret .bad
  | .iface => withReadL (fun s => readEface (P.mem s) p) fun
      | none => .ret (.ok (dst ++ b! "null"))
      | some x => appendJSONL W rec path (some x) dst
  | .struct t canAddr =>
    if (fieldsOfK (W.E t).kind).length = 0 then .ret (.ok (dst ++ b! "{}"))
    else
      match structFieldsInstr W.E W.U W.grow W.sort W.tfuel t canAddr with
      | none => .ret .nofuel
      | some flds => structLoopL P o rec path p 0 flds true dst
  | .map _ ki vi => encodeMapL W P o lim rec path ki vi p dst
  | .byteSlice => withReadL (fun s => readByteSlice (P.mem s) p) fun b =>
      .ret (.ok (encodeByteSlice b dst o.esc (bmHas o.flags .rawByteSlice)))
  | .slice ins es => withReadL (fun s => readSlice (P.mem s) p) fun (d, n) =>
      if d = 0 then .ret (.ok (if bmHas o.flags .nilSliceEmpty then dst ++ b! "[]" else dst ++ b! "null"))
      else if n = 0 then .ret (.ok (dst ++ b! "[]"))
      else encodeArrayL P o rec path ins es n false (.heap d) dst
  | .array ins es n isba => encodeArrayL P o rec path ins es n isba p dst
  | .ptr i => withReadL (fun s => readWord (P.mem s) p) fun a =>
      if a ≠ 0 then rec path i (.heap a) dst else .ret (.ok (dst ++ b! "null"))
  | .unsupported t => .ret (.fail (.unsupportedType t) dst)

/-- Running an instruction; `fuel` bounds the nesting depth and `lim` the number of entries of one
iteration (/repo/encode.go: instructions calling instructions). -/
def runL (W : World) (P : Around σ) (o : EncOpts) (lim : Nat) : Nat → Path → Instr → Loc → Bytes → Act σ
  | 0, _, _, _, _ => .ret .nofuel
  | fuel + 1, path, i, p, dst => execL W P o lim (runL W P o lim fuel) path i p dst

/-- `MarshalOpts`, /repo/json.go:130-143, with `marshalJSON` (162-183). -/
def marshalL (W : World) (P : Around σ) (lim n : Nat) (v : Eface) (opts : List (Option Opt)) (s : σ) : Ret × σ :=
  match v with
  | none => (.ret (some (b! "null")) none, s)
  | some x =>
    match prepare opts with
    | .error e => (.ret none (some (.invalidOption e)), s)
    | .ok o => let r := appendJSONL W (runL W P o lim n) [] (some x) [] s; (marshalRet r.1, r.2)

/-- `AppendOpts`, /repo/json.go:147-160, with `appendJSON` (185-192). -/
def appendL (W : World) (P : Around σ) (lim n : Nat) (dst : Bytes) (v : Eface) (opts : List (Option Opt)) (s : σ) : Ret × σ :=
  match v with
  | none => (.ret (some (dst ++ b! "null")) none, s)
  | some x =>
    match prepare opts with
    | .error e => (.ret none (some (.invalidOption e)), s)
    | .ok o => let r := appendJSONL W (runL W P o lim n) [] (some x) dst s; (appendRet r.1, r.2)

end Jettison.Model
