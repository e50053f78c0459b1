import Verif.Spec.Maps
import Verif.Spec.Times
import Verif.Spec.Duration
import Verif.Spec.Base64
import Verif.Spec.Float

/-!
# Specification: the JSON tree of a value

`Denotes W M o t ca q v j`: the tree that the documentation (/repo/README.md, /repo/json.go,
/repo/options.go) prescribes for the value `v` of type `t` under the options `o`; `ca` says
that the value is addressable, `q` that it is a field with the `string` tag option. Nothing is
said about the spelling: whitespace, escapes, the digits of floats. The members of an object
made from a map stand in any order.

`Fine` are the values that the theorem about the tree (C30) is restricted to, part by part.
-/

namespace Jettison.Spec
open Jettison Jettison.Model

/-- The content of the JSON string for a Go string: its bytes, malformed UTF-8 replaced unless
NoUTF8Coercion is set. -/
def StrContent (o : EncOpts) (s c : Bytes) : Prop :=
  (bmHas o.flags .noUTF8Coercion = true → c = s) ∧ (bmHas o.flags .noUTF8Coercion = false → Coerced s c)

/-- A number denoting the same decimal as the text of the standard library for the float. -/
def FloatLit (fmt : FloatFmt) (w : FWidth) (bits : Nat) (lit : Bytes) : Prop :=
  IsFinite w bits ∧ ∃ f m e, NumDenotes (fmt w bits f) m e ∧ NumDenotes lit m e

/-- The tree of a time. -/
inductive TimeTree (W : World) (o : EncOpts) (x : GoTime) : Json → Prop
  | unix {lit} : bmHas o.flags .unixTime = true → IntLiteral lit x.unix → TimeTree W o x (.num lit)
  | rfc3339 {text} : bmHas o.flags .unixTime = false → o.layout = .rfc3339 → IsRFC3339 x false text → TimeTree W o x (.str text)
  | nano {text} : bmHas o.flags .unixTime = false → o.layout = .rfc3339Nano → IsRFC3339 x true text → TimeTree W o x (.str text)
  | layout {l} : bmHas o.flags .unixTime = false → o.layout = .other l → TimeTree W o x (.str (W.appendFormat x l))

/-- The tree of a duration. -/
inductive DurTree (W : World) (o : EncOpts) (d : Int64) : Json → Prop
  | str {text} : o.durFmt = .str → readDuration text = some d.toInt → DurTree W o d (.str text)
  | ns {lit} : o.durFmt = .nanoseconds → IntLiteral lit d.toInt → DurTree W o d (.num lit)
  | us {lit} : o.durFmt = .microseconds → IntLiteral lit (d.toInt.tdiv 1000) → DurTree W o d (.num lit)
  | ms {lit} : o.durFmt = .milliseconds → IntLiteral lit (d.toInt.tdiv 1000000) → DurTree W o d (.num lit)
  | sec {lit} : o.durFmt = .seconds → FloatLit W.fmt .f64 (W.df.seconds d) lit → DurTree W o d (.num lit)
  | min {lit} : o.durFmt = .minutes → FloatLit W.fmt .f64 (W.df.minutes d) lit → DurTree W o d (.num lit)

/-- The tree of what a method returns. -/
inductive MethTree (M : MethV) (o : EncOpts) (rt : TId) (x : Val) : MethKind → Json → Prop
  | ctx {path b j} : M path .appendCtx o.ctx rt x [] = .ok b → CompactText j b → MethTree M o rt x .appendCtx j
  | app {path b j} : M path .append none rt x [] = .ok b → CompactText j b → MethTree M o rt x .append j
  | json {path b j} : M path .json none rt x [] = .ok b → JsonText j b → MethTree M o rt x .json j
  | text {path b} : M path .text none rt x [] = .ok b → MethTree M o rt x .text (.str b)

mutual
/-- The tree of a value. -/
inductive Denotes (W : World) (M : MethV) (o : EncOpts) : TId → Bool → Bool → Val → Json → Prop
  -- methods
  | methNil {t ca q m} : (W.E t).special = none → Picks W.E t ca m → MethSet.Has (W.E t).meths m → IsPtr W.E t ∨ IsIface W.E t →
      Denotes W M o t ca q .nil .null
  | meth {t ca q m v rt x u j} : (W.E t).special = none → Picks W.E t ca m → Receives W.E W.ptrTo t m v rt x u →
      MethTree M o rt x m j → Denotes W M o t ca q v j
  -- natively handled types
  | time {t ca x j} : (W.E t).special = some .time → TimeTree W o x j → Denotes W M o t ca false (.time x) j
  | duration {t ca d j} : (W.E t).special = some .duration → DurTree W o d j → Denotes W M o t ca false (.int (.int64 d)) j
  | number0 {t ca} : (W.E t).special = some .number → Denotes W M o t ca false (.str []) (.num (b! "0"))
  | number {t ca s} : (W.E t).special = some .number → IsNumber s → Denotes W M o t ca false (.str s) (.num s)
  | rawNil {t ca} : (W.E t).special = some .rawMessage → Denotes W M o t ca false .nil .null
  | raw {t ca vs b j} : (W.E t).special = some .rawMessage → AsBytes vs b → JsonText j b → Denotes W M o t ca false (.slice vs) j
  | smap {t ca kvs ms ms'} : (W.E t).special = some .syncMap → ms.length = kvs.length →
      (∀ (i : Nat) kv m, kvs[i]? = some kv → ms[i]? = some m → SyncKeyDenotes W M o kv.1 m.1) →
      (∀ (i : Nat) kv m, kvs[i]? = some kv → ms[i]? = some m → HeldDenotes W M o kv.2 m.2) → ms'.Perm ms →
      Denotes W M o t ca false (.smap kvs) (.obj ms')
  -- kinds
  | bool {t ca b} : ByKind W.E t ca → (W.E t).kind = .bool → Denotes W M o t ca false (.bool b) (.bool b)
  | int {t ca k x lit} : ByKind W.E t ca → (W.E t).kind = .int k → IntLiteral lit (intOf x) → Denotes W M o t ca false (.int x) (.num lit)
  | float {t ca w b lit} : ByKind W.E t ca → (W.E t).kind = .float w → FloatLit W.fmt w b lit → Denotes W M o t ca false (.float w b) (.num lit)
  | str {t ca s c} : ByKind W.E t ca → (W.E t).kind = .string → StrContent o s c → Denotes W M o t ca false (.str s) (.str c)
  | quoted {t ca v j text} : ByKind W.E t ca → isBasicK (W.E t).kind = true → Denotes W M o t ca false v j → CompactText j text →
      Denotes W M o t ca true v (.str text)
  | ptrNil {t ca q e} : ByKind W.E t ca → (W.E t).kind = .ptr e → Denotes W M o t ca q .nil .null
  | ptr {t ca q e v j} : ByKind W.E t ca → (W.E t).kind = .ptr e → Denotes W M o e true q v j → Denotes W M o t ca q (.ptr v) j
  | iface {t ca k v j} : ByKind W.E t ca → (W.E t).kind = .iface k → HeldDenotes W M o v j → Denotes W M o t ca false v j
  | bytesNil {t ca e} : ByKind W.E t ca → (W.E t).kind = .slice e → ByteElem W.E e → bmHas o.flags .nilSliceEmpty = false →
      Denotes W M o t ca false .nil .null
  | bytes {t ca e vs b text} : ByKind W.E t ca → (W.E t).kind = .slice e → ByteElem W.E e → bmHas o.flags .rawByteSlice = false →
      AsBytes vs b → IsBase64 b text → Denotes W M o t ca false (.slice vs) (.str text)
  | rawBytes {t ca e vs b c} : ByKind W.E t ca → (W.E t).kind = .slice e → ByteElem W.E e → bmHas o.flags .rawByteSlice = true →
      AsBytes vs b → StrContent o b c → Denotes W M o t ca false (.slice vs) (.str c)
  | sliceNil {t ca e} : ByKind W.E t ca → (W.E t).kind = .slice e → ¬ ByteElem W.E e → bmHas o.flags .nilSliceEmpty = false →
      Denotes W M o t ca false .nil .null
  | sliceNil0 {t ca e} : ByKind W.E t ca → (W.E t).kind = .slice e → bmHas o.flags .nilSliceEmpty = true →
      Denotes W M o t ca false .nil (.arr [])
  | slice {t ca e vs js} : ByKind W.E t ca → (W.E t).kind = .slice e → ¬ ByteElem W.E e → js.length = vs.length →
      (∀ (i : Nat) v j, vs[i]? = some v → js[i]? = some j → Denotes W M o e true false v j) → Denotes W M o t ca false (.slice vs) (.arr js)
  | byteArray {t ca n e vs b c} : ByKind W.E t ca → (W.E t).kind = .array n e → ByteElem W.E e → bmHas o.flags .byteArrayAsString = true →
      AsBytes vs b → StrContent o b c → Denotes W M o t ca false (.array vs) (.str c)
  | array {t ca n e vs js} : ByKind W.E t ca → (W.E t).kind = .array n e → (ByteElem W.E e → bmHas o.flags .byteArrayAsString = false) →
      js.length = vs.length → (∀ (i : Nat) v j, vs[i]? = some v → js[i]? = some j → Denotes W M o e ca false v j) →
      Denotes W M o t ca false (.array vs) (.arr js)
  | mapNil {t ca k e} : ByKind W.E t ca → (W.E t).kind = .map k e → bmHas o.flags .nilMapEmpty = false → Denotes W M o t ca false .nil .null
  | mapNil0 {t ca k e} : ByKind W.E t ca → (W.E t).kind = .map k e → bmHas o.flags .nilMapEmpty = true → Denotes W M o t ca false .nil (.obj [])
  | map {t ca k e kvs ms ms'} : ByKind W.E t ca → (W.E t).kind = .map k e → ms.length = kvs.length →
      (∀ (i : Nat) kv m, kvs[i]? = some kv → ms[i]? = some m → KeyDenotes W M o k false kv.1 m.1) →
      (∀ (i : Nat) kv m, kvs[i]? = some kv → ms[i]? = some m → Denotes W M o e false false kv.2 m.2) → ms'.Perm ms →
      Denotes W M o t ca false (.map kvs) (.obj ms')
  | struct {t ca v} {l kept : List MField} {q' : MField → Bool} {x : MField → Val} {j : MField → Json} : ByKind W.E t ca → IsStruct W.E t → MembersOf W.U.isLetter W.U.isDigit W.E t l → kept.Sublist l →
      (∀ m ∈ l, m ∈ kept ↔ ¬ LeftOut o v m) → (∀ m ∈ kept, FieldAt v m.path (x m)) →
      (∀ m ∈ kept, q' m = true ↔ HasOpt m.decl (b! "string") ∧ BasicOrPtr W.E m.decl.typ) →
      (∀ m, m ∈ kept → Denotes W M o m.decl.typ ca (q' m) (x m) (j m)) →
      Denotes W M o t ca false v (.obj (kept.map fun m => (m.name, j m)))

/-- The tree of the value in an interface. -/
inductive HeldDenotes (W : World) (M : MethV) (o : EncOpts) : Val → Json → Prop
  | nil : HeldDenotes W M o .nil .null
  | val {d x j} : Denotes W M o d (isPtrK (W.E d).kind) false x j → HeldDenotes W M o (.iface d x) j

/-- The name of the member for a key of a map. -/
inductive KeyDenotes (W : World) (M : MethV) (o : EncOpts) : TId → Bool → Val → Bytes → Prop
  | str {kt ca s c} : (W.E kt).kind = .string → StrContent o s c → KeyDenotes W M o kt ca (.str s) c
  | num {kt ca x c} : (W.E kt).kind ≠ .string → (W.E kt).meths.text = false → Denotes W M o kt ca false x (.num c) → KeyDenotes W M o kt ca x c
  | text {kt ca x c} : (W.E kt).kind ≠ .string → (W.E kt).meths.text = true → Denotes W M o kt ca false x (.str c) → KeyDenotes W M o kt ca x c
  | nilText {kt ca} : (W.E kt).meths.text = true → IsPtr W.E kt → KeyDenotes W M o kt ca .nil []

/-- The name of the member for a key of a `sync.Map`. -/
inductive SyncKeyDenotes (W : World) (M : MethV) (o : EncOpts) : Val → Bytes → Prop
  | key {d x c} : KeyDenotes W M o d (isPtrK (W.E d).kind) x c → SyncKeyDenotes W M o (.iface d x) c
end

/-! ## Restrictions -/

/-- A Go time (`Unix` is an int64, nanoseconds are below a second); with the RFC 3339 layouts not
before 0000-12-31 on its clock (finding 5); with another layout, its text needs no escapes. -/
structure TimeFine (W : World) (o : EncOpts) (x : GoTime) : Prop where
  unix : -9223372036854775808 ≤ x.unix ∧ x.unix < 9223372036854775808
  nsec : x.nsec < 1000000000
  year : bmHas o.flags .unixTime = false → o.layout = .rfc3339 ∨ o.layout = .rfc3339Nano →
    (dayNumber 0 12 31 * 86400 : Nat) ≤ x.unix + x.offset + epochSeconds
  layout : bmHas o.flags .unixTime = false → ∀ l, o.layout = .other l → unescape (W.appendFormat x l) = some (W.appendFormat x l)

/-- Keys that are neither strings nor texts are integers without methods or durations encoded as
numbers; text keys are texts of a `MarshalText` method that comes first, not of a nil interface,
or times not encoded as numbers (findings 9 and 22). -/
structure KeyFine (W : World) (o : EncOpts) (kt : TId) (x : Val) : Prop where
  num : (W.E kt).kind ≠ .string → (W.E kt).meths.text = false → ByKind W.E kt false ∨ ((W.E kt).special = some .duration ∧ o.durFmt ≠ .str)
  text : (W.E kt).kind ≠ .string → (W.E kt).meths.text = true →
    ((W.E kt).special = none ∧ Picks W.E kt false .text ∧ (IsIface W.E kt → x ≠ .nil)) ∨
      ((W.E kt).special = some .time ∧ bmHas o.flags .unixTime = false)

/-- With the `string` tag option: no natively handled type (finding 6), and no string with
characters to be escaped (finding 3). -/
structure TagFine (W : World) (o : EncOpts) (t : TId) (v : Val) : Prop where
  native : (W.E t).special = none ∧ ∀ e, (W.E t).kind = .ptr e → (W.E e).special = none
  plain : ∀ s c, v = .str s ∨ v = .ptr (.str s) → StrContent o s c → unescape c = some c

/-- What is asked of the result of a user method: `AppendJSON` methods append one JSON text
without whitespace, the text of a `MarshalText` method needs no escapes (finding 2), and with
NoCompact a `MarshalJSON` method returns JSON without whitespace. -/
def MethFine (o : EncOpts) (b : Bytes) : MethKind → Prop
  | .appendCtx | .append => ∃ j, CompactText j b
  | .json => bmHas o.flags .noCompact = true → ∃ j, CompactText j b
  | .text => unescape b = some b

/-- The restrictions on a value, its parts not considered. -/
structure Fine (W : World) (M : MethV) (o : EncOpts) (t : TId) (v : Val) : Prop where
  meth : (W.E t).special = none → ∀ ca m rt x u path c b, Picks W.E t ca m → Receives W.E W.ptrTo t m v rt x u → M path m c rt x [] = .ok b → MethFine o b m
  time : ∀ x, v = .time x → TimeFine W o x
  number : ∀ s, (W.E t).special = some .number → v = .str s → bmHas o.flags .noNumberValidation = true → s = [] ∨ IsNumber s
  raw : ∀ vs b, (W.E t).special = some .rawMessage → v = .slice vs → AsBytes vs b →
    ∃ j, JsonText j b ∧ (bmHas o.flags .noCompact = true → CompactText j b)
  nilBytes : ∀ e, (W.E t).special = none → (W.E t).kind = .slice e → ByteElem W.E e → v = .nil → bmHas o.flags .nilSliceEmpty = false
  key : ∀ k e kvs kv, (W.E t).kind = .map k e → v = .map kvs → kv ∈ kvs → KeyFine W o k kv.1
  skey : ∀ kvs kv d x, v = .smap kvs → kv ∈ kvs → kv.1 = .iface d x → KeyFine W o d x ∧ (IsPtr W.E d → x ≠ .nil)
  tag : ∀ m x, ChosenField W.U.isLetter W.U.isDigit W.E t m → FieldAt v m.path x → HasOpt m.decl (b! "string") → BasicOrPtr W.E m.decl.typ →
    TagFine W o m.decl.typ x
  null : ∀ m, IsStruct W.E t → ChosenField W.U.isLetter W.U.isDigit W.E t m → HasOpt m.decl (b! "omitnil") → ¬ HasMarshalJSON W.E m.decl.typ

end Jettison.Spec
