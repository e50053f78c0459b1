import Verif.Model.Duration
import Verif.Model.Time
import Verif.Model.Escape

/-!
# Model of the options (/repo/options.go)
-/

namespace Jettison.Model

/-- The flag options, in the order of the constants of /repo/options.go:28-40. -/
inductive Flag
  | unixTime | unsortedMap | rawByteSlice | byteArrayAsString | nilMapEmpty | nilSliceEmpty
  | noStringEscaping | noHTMLEscaping | noUTF8Coercion | noCompact | noNumberValidation
  deriving DecidableEq, Repr

/-- `1 << iota`, /repo/options.go:28-40. -/
def Flag.mask : Flag → UInt64
  | .unixTime => 1
  | .unsortedMap => 2
  | .rawByteSlice => 4
  | .byteArrayAsString => 8
  | .nilMapEmpty => 16
  | .nilSliceEmpty => 32
  | .noStringEscaping => 64
  | .noHTMLEscaping => 128
  | .noUTF8Coercion => 256
  | .noCompact => 512
  | .noNumberValidation => 1024

/-- `b.set(f)`, /repo/options.go:25. -/
def bmSet (b : UInt64) (f : Flag) : UInt64 := b ||| f.mask

/-- `b.has(f)`, /repo/options.go:26. -/
def bmHas (b : UInt64) (f : Flag) : Bool := b &&& f.mask ≠ 0

/-- A `context.Context`, known only by its identity; 0 is `context.TODO()` (/repo/options.go:43, 53). -/
abbrev Ctx := Nat

/-- `stringSet`, a `map[string]struct{}`: only membership is used (/repo/options.go:99). -/
abbrev StringSet := List Bytes

/-- `encOpts`, /repo/options.go:42-49. `none` is Go's nil, for the context and the sets. -/
structure EncOpts where
  ctx : Option Ctx
  timeLayout : Bytes
  durationFmt : Int
  flags : UInt64
  allowList : Option StringSet
  denyList : Option StringSet
  deriving DecidableEq

/-- `time.RFC3339` (/repo/encode.go:119). -/
def layoutRFC3339 : Bytes := b! "2006-01-02T15:04:05Z07:00"

/-- `time.RFC3339Nano` (/repo/encode.go:121, /repo/options.go:13). -/
def layoutRFC3339Nano : Bytes := b! "2006-01-02T15:04:05.999999999Z07:00"

/-- `defaultEncOpts`, /repo/options.go:51-57. -/
def defaultEncOpts : EncOpts :=
  { ctx := some 0, timeLayout := layoutRFC3339Nano, durationFmt := 5, flags := 0,
    allowList := none, denyList := none }

/-- An option. `Option` is a function type over an unexported struct
(/repo/options.go:21), so outside the package the only options are those built by
the exported constructors (and nil, modelled by `none` in `apply`). -/
inductive Opt
  | flag (f : Flag)
  | timeLayout (layout : Bytes)
  | durationFormat (format : Int)
  | withContext (ctx : Option Ctx)
  | allowList (fields : List Bytes)
  | denyList (fields : List Bytes)

/-- `fieldListToSet`, /repo/options.go:101-107: never nil. -/
def fieldListToSet (l : List Bytes) : StringSet := l

/-- The option functions, /repo/options.go:109-234. -/
def Opt.run : Opt → EncOpts → EncOpts
  | .flag f, o => { o with flags := bmSet o.flags f }
  | .timeLayout l, o => { o with timeLayout := l }
  | .durationFormat f, o => { o with durationFmt := f }
  | .withContext c, o => { o with ctx := c }
  | .allowList l, o => { o with allowList := some (fieldListToSet l) }
  | .denyList l, o => { o with denyList := some (fieldListToSet l) }

/-- `(*encOpts).apply`, /repo/options.go:59-65. -/
def EncOpts.apply (o : EncOpts) : List (Option Opt) → EncOpts
  | [] => o
  | none :: t => o.apply t
  | some f :: t => (f.run o).apply t

/-- `DurationFmt.valid`, /repo/time.go:30-32. -/
def durationFmtValid (f : Int) : Bool := f ≥ 0 && f ≤ 5

/-- The errors of `validate` (/repo/options.go:69-74). -/
inductive OptErr | nilContext | emptyLayout | unknownDuration
  deriving DecidableEq, Repr

/-- `encOpts.validate`, /repo/options.go:67-78. -/
def EncOpts.validate (o : EncOpts) : Option OptErr :=
  if o.ctx = none then some .nilContext
  else if o.timeLayout = [] then some .emptyLayout
  else if !durationFmtValid o.durationFmt then some .unknownDuration
  else none

/-- `encOpts.isDeniedField`, /repo/options.go:83-97. -/
def EncOpts.isDeniedField (o : EncOpts) (name : Bytes) : Bool :=
  if (match o.denyList with | some d => d.contains name | none => false) then true
  else match o.allowList with
    | some a => !a.contains name
    | none => false

/-- The preparation shared by `MarshalOpts` and `AppendOpts`, /repo/json.go:134-141
and 151-158: defaults, then the options if any, then validation. -/
def prepare (opts : List (Option Opt)) : Except OptErr EncOpts :=
  if opts.length ≠ 0 then
    let eo := defaultEncOpts.apply opts
    match eo.validate with
    | some e => .error e
    | none => .ok eo
  else .ok defaultEncOpts

/-- The escaping flags that `appendEscapedBytes` reads, /repo/encode.go:805-813. -/
def EncOpts.esc (o : EncOpts) : EscOpts :=
  { noStringEscaping := bmHas o.flags .noStringEscaping
    noHTMLEscaping := bmHas o.flags .noHTMLEscaping
    noUTF8Coercion := bmHas o.flags .noUTF8Coercion }

/-- The `switch opts.durationFmt` of /repo/encode.go:136-152. -/
def EncOpts.durFmt (o : EncOpts) : DurFmt :=
  if o.durationFmt = 1 then .minutes
  else if o.durationFmt = 2 then .seconds
  else if o.durationFmt = 4 then .microseconds
  else if o.durationFmt = 3 then .milliseconds
  else if o.durationFmt = 0 then .str
  else .nanoseconds

/-- The `switch opts.timeLayout` of /repo/encode.go:118-128. -/
def EncOpts.layout (o : EncOpts) : Layout :=
  if o.timeLayout = layoutRFC3339 then .rfc3339
  else if o.timeLayout = layoutRFC3339Nano then .rfc3339Nano
  else .other o.timeLayout

end Jettison.Model
