import Verif.Spec.Doc

/-!
# Specification: what makes a call fail

`Encodes W o t ca v t' ca' v'`: encoding the value `v` of type `t` encodes its part `v'` of
type `t'`; the flags say whether they are addressable. `Fault` are the reasons a part has for
an error, with the error, and `Trap` those for a panic; both are about the part itself, not
about its own parts.
-/

namespace Jettison.Spec
open Jettison Jettison.Model

/-- The immediate parts of a value that are encoded with it. A part that a method, a natively
handled type or a byte string stands for is not; nor are fields left out and nil pointers as
text keys. Keys that are strings have no parts of their own. -/
inductive Encodes1 (W : World) (o : EncOpts) : TId → Bool → Val → TId → Bool → Val → Prop
  | ptr {t ca e v} : ByKind W.E t ca → (W.E t).kind = .ptr e → Encodes1 W o t ca (.ptr v) e true v
  | iface {t ca n d v} : ByKind W.E t ca → (W.E t).kind = .iface n → Encodes1 W o t ca (.iface d v) d (isPtrK (W.E d).kind) v
  | slice {t ca e vs v} : ByKind W.E t ca → (W.E t).kind = .slice e → ¬ ByteElem W.E e → v ∈ vs → Encodes1 W o t ca (.slice vs) e true v
  | array {t ca n e vs v} : ByKind W.E t ca → (W.E t).kind = .array n e → ¬ (ByteElem W.E e ∧ bmHas o.flags .byteArrayAsString = true) →
      v ∈ vs → Encodes1 W o t ca (.array vs) e ca v
  | key {t ca k e kvs kv} : ByKind W.E t ca → (W.E t).kind = .map k e → KeyType W.E k → (W.E k).kind ≠ .string →
      ((W.E k).meths.text = true → IsPtr W.E k → kv.1 ≠ .nil) → kv ∈ kvs → Encodes1 W o t ca (.map kvs) k false kv.1
  | elem {t ca k e kvs kv} : ByKind W.E t ca → (W.E t).kind = .map k e → KeyType W.E k → kv ∈ kvs →
      Encodes1 W o t ca (.map kvs) e false kv.2
  | field {t ca v m x} : ByKind W.E t ca → IsStruct W.E t → ChosenField W.U.isLetter W.U.isDigit W.E t m → ¬ LeftOut o v m →
      FieldAt v m.path x → Encodes1 W o t ca v m.decl.typ ca x
  | skey {t ca kvs kv d v} : (W.E t).special = some .syncMap → kv ∈ kvs → kv.1 = .iface d v → KeyType W.E d → (W.E d).kind ≠ .string →
      Encodes1 W o t ca (.smap kvs) d (isPtrK (W.E d).kind) v
  | selem {t ca kvs kv d v} : (W.E t).special = some .syncMap → kv ∈ kvs → kv.2 = .iface d v →
      Encodes1 W o t ca (.smap kvs) d (isPtrK (W.E d).kind) v

/-- The value itself and the parts at any depth that are encoded with it. -/
inductive Encodes (W : World) (o : EncOpts) : TId → Bool → Val → TId → Bool → Val → Prop
  | refl {t ca v} : Encodes W o t ca v t ca v
  | step {t ca v t' ca' v' t'' ca'' v''} : Encodes1 W o t ca v t' ca' v' → Encodes W o t' ca' v' t'' ca'' v'' →
      Encodes W o t ca v t'' ca'' v''

/-- The context that a method is given. -/
def argCtx (o : EncOpts) : MethKind → Option Ctx
  | .appendCtx => o.ctx
  | _ => none

/-- The time has a clock reading in the years 0 to 9999. -/
def HasYear (x : GoTime) : Prop := ∃ y mo d h mi s, y ≤ 9999 ∧ CivilTime (x.unix + x.offset) y mo d h mi s

/-- A part that cannot be encoded, and the error saying so. -/
inductive Fault (W : World) (M : MethV) (o : EncOpts) : TId → Bool → Val → Err → Prop
  | float {t ca w b} : ByKind W.E t ca → (W.E t).kind = .float w → ¬ IsFinite w b → Fault W M o t ca (.float w b) (.unsupportedValue w b)
  | seconds {t ca d} : (W.E t).special = some .duration → o.durFmt = .seconds → ¬ IsFinite .f64 (W.df.seconds d) →
      Fault W M o t ca (.int (.int64 d)) (.unsupportedValue .f64 (W.df.seconds d))
  | minutes {t ca d} : (W.E t).special = some .duration → o.durFmt = .minutes → ¬ IsFinite .f64 (W.df.minutes d) →
      Fault W M o t ca (.int (.int64 d)) (.unsupportedValue .f64 (W.df.minutes d))
  | number {t ca s} : (W.E t).special = some .number → bmHas o.flags .noNumberValidation = false → s ≠ [] → ¬ IsNumber s →
      Fault W M o t ca (.str s) (.numberLiteral s)
  | time {t ca x} : (W.E t).special = some .time → ¬ HasYear x → Fault W M o t ca (.time x) .timeRange
  | typ {t ca v} : ByKind W.E t ca → ((W.E t).kind = .other ∨ ∃ k e, (W.E t).kind = .map k e ∧ ¬ KeyType W.E k) →
      Fault W M o t ca v (.unsupportedType t)
  | method {t ca m v rt x u id path} : (W.E t).special = none → Picks W.E t ca m → Receives W.E W.ptrTo t m v rt x u →
      M path m (argCtx o m) rt x [] = .err id → Fault W M o t ca v (.marshaler u m (.user id))
  | malformed {t ca v rt x u b path} : (W.E t).special = none → Picks W.E t ca .json → Receives W.E W.ptrTo t .json v rt x u →
      M path .json none rt x [] = .ok b → bmHas o.flags .noCompact = false → (∀ j, ¬ JsonText j b) →
      Fault W M o t ca v (.marshaler u .json .syntax)
  | nilKey {t ca kvs kv} : (W.E t).special = some .syncMap → kv ∈ kvs → kv.1 = .nil → Fault W M o t ca (.smap kvs) .syncMapNilKey
  | badKey {t ca kvs kv d v} : (W.E t).special = some .syncMap → kv ∈ kvs → kv.1 = .iface d v → ¬ KeyType W.E d →
      Fault W M o t ca (.smap kvs) (.syncMapKey d)

/-- A key whose type has a `MarshalText` method that is not the one used (finding 9), and whose text
has less than the two bytes of a pair of quotes. -/
inductive ShortKey (W : World) (M : MethV) (o : EncOpts) (k : TId) (ca : Bool) : Val → Prop
  | time {x} : (W.E k).meths.text = true → (W.E k).special = some .time → bmHas o.flags .unixTime = true → HasYear x →
      0 ≤ (Int64.ofInt x.unix).toInt → (Int64.ofInt x.unix).toInt ≤ 9 → ShortKey W M o k ca (.time x)
  | append {m v rt x u b path} : (W.E k).meths.text = true → (W.E k).special = none → Picks W.E k ca m → m = .appendCtx ∨ m = .append →
      Receives W.E W.ptrTo k m v rt x u → M path m (argCtx o m) rt x [] = .ok b → b.length < 2 → ShortKey W M o k ca v
  | verbatim {v rt x u b path} : (W.E k).meths.text = true → (W.E k).special = none → Picks W.E k ca .json →
      Receives W.E W.ptrTo k .json v rt x u → M path .json none rt x [] = .ok b → bmHas o.flags .noCompact = true → b.length < 2 → ShortKey W M o k ca v
  | json {v rt x u b path lit} : (W.E k).meths.text = true → (W.E k).special = none → Picks W.E k ca .json →
      Receives W.E W.ptrTo k .json v rt x u → M path .json none rt x [] = .ok b → bmHas o.flags .noCompact = false →
      JsonText (.num lit) b → lit.length < 2 → ShortKey W M o k ca v

/-- A part on which the encoder panics: a `sync.Map` with a nil value (finding 10), a sorted map
with a short key (finding 9), or a method that panics. -/
inductive Trap (W : World) (M : MethV) (o : EncOpts) : TId → Bool → Val → Prop
  | nilElem {t ca kvs kv} : (W.E t).special = some .syncMap → kv ∈ kvs → kv.2 = .nil → Trap W M o t ca (.smap kvs)
  | method {t ca m v rt x u path} : (W.E t).special = none → Picks W.E t ca m → Receives W.E W.ptrTo t m v rt x u →
      M path m (argCtx o m) rt x [] = .panic → Trap W M o t ca v
  | key {t ca k e kvs kv} : ByKind W.E t ca → (W.E t).kind = .map k e → (W.E k).kind ≠ .string → bmHas o.flags .unsortedMap = false →
      kv ∈ kvs → ShortKey W M o k false kv.1 → Trap W M o t ca (.map kvs)
  | skey {t ca kvs kv d v} : (W.E t).special = some .syncMap → bmHas o.flags .unsortedMap = false → kv ∈ kvs → kv.1 = .iface d v →
      (W.E d).kind ≠ .string → ShortKey W M o d (isPtrK (W.E d).kind) v → Trap W M o t ca (.smap kvs)

/-- Of the natively handled types only `time.Time` has a `MarshalText` method. -/
def StdText (E : Env) : Prop := ∀ t s, (E t).special = some s → (E t).meths.text = true → s = .time

end Jettison.Spec
