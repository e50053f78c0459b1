import Verif.Model.Encode

/-!
# Model of the entry points (/repo/json.go:108-192)

The caches and pools used by `marshalJSON` are not here: `instrFor` is what
`cachedInstr` returns (Model/Shared) and the pooled buffer is empty (Model/Calls).
-/

namespace Jettison.Model

/-- The errors the functions return: `InvalidOptionError` or an error of the
encoding (/repo/json.go:96-101 and 139; 36-91 for the others). -/
inductive ApiErr
  | invalidOption (e : OptErr)
  | encoding (e : Err)
  deriving DecidableEq, Repr

/-- What a call does: return bytes and an error, `none` standing for nil, or one of
the abnormal outcomes of `Res` (/repo/json.go:111-160). -/
inductive Ret
  | ret (b : Option Bytes) (e : Option ApiErr)
  | panic
  | bad
  | nofuel
  deriving DecidableEq, Repr

/-- The end of `marshalJSON`, /repo/json.go:172-182: a copy of the buffer, which is
never nil, or nil bytes with the error. -/
def marshalRet : Res → Ret
  | .ok b => .ret (some b) none
  | .fail e _ => .ret none (some (.encoding e))
  | .panic => .panic
  | .bad => .bad
  | .nofuel => .nofuel

/-- The end of `appendJSON`, /repo/json.go:185-192: the buffer as the instruction
left it. Whether an empty `dst` is nil is not tracked. -/
def appendRet : Res → Ret
  | .ok b => .ret (some b) none
  | .fail e b => .ret (some b) (some (.encoding e))
  | .panic => .panic
  | .bad => .bad
  | .nofuel => .nofuel

/-- `marshalJSON`, /repo/json.go:162-183. -/
def marshalJSON (W : World) (H : Heap) (o : EncOpts) (n : Nat) (v : Eface) : Ret :=
  marshalRet (appendJSON W (run W H o n) [] v [])

/-- The function `appendJSON`, /repo/json.go:185-192, as called by `Append` and
`AppendOpts`. -/
def appendTop (W : World) (H : Heap) (o : EncOpts) (n : Nat) (dst : Bytes) (v : Eface) : Ret :=
  appendRet (appendJSON W (run W H o n) [] v dst)

/-- `Marshal`, /repo/json.go:111-116. -/
def marshal (W : World) (H : Heap) (n : Nat) (v : Eface) : Ret :=
  match v with
  | none => .ret (some (b! "null")) none
  | some x => marshalJSON W H defaultEncOpts n (some x)

/-- `Append`, /repo/json.go:121-126. -/
def append (W : World) (H : Heap) (n : Nat) (dst : Bytes) (v : Eface) : Ret :=
  match v with
  | none => .ret (some (dst ++ b! "null")) none
  | some x => appendTop W H defaultEncOpts n dst (some x)

/-- `MarshalOpts`, /repo/json.go:130-143. -/
def marshalOpts (W : World) (H : Heap) (n : Nat) (v : Eface) (opts : List (Option Opt)) : Ret :=
  match v with
  | none => .ret (some (b! "null")) none
  | some x =>
    match prepare opts with
    | .error e => .ret none (some (.invalidOption e))
    | .ok o => marshalJSON W H o n (some x)

/-- `AppendOpts`, /repo/json.go:147-160. -/
def appendOpts (W : World) (H : Heap) (n : Nat) (dst : Bytes) (v : Eface) (opts : List (Option Opt)) : Ret :=
  match v with
  | none => .ret (some (dst ++ b! "null")) none
  | some x =>
    match prepare opts with
    | .error e => .ret none (some (.invalidOption e))
    | .ok o => appendTop W H o n dst (some x)

end Jettison.Model
