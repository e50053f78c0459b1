import Verif.Spec.Writes

/-!
# Specification: what makes a text malformed

`Spoils ws W M o t ca v`: the value `v` of type `t`, its parts not considered, has a reason for a
text that is not JSON; `SpoilsMember` are the reasons for an object with a member that is malformed.
`ws` says which whitespace is allowed: with `Ws` the texts are those of RFC 8259, with `NoWs` those
without whitespace. All reasons come from outside of the package, or are findings of DESIGN.md.
-/

namespace Jettison.Spec
open Jettison Jettison.Model

/-- A JSON value, with whitespace around it if allowed. -/
def Formed (ws : Bytes → Prop) (b : Bytes) : Prop := ∃ w1 s w2 j, ws w1 ∧ ws w2 ∧ Gr ws (.val j) s ∧ b = w1 ++ (s ++ w2)

/-- A JSON string, with whitespace around it if allowed. -/
def StrFormed (ws : Bytes → Prop) (b : Bytes) : Prop := ∃ w1 kb w2 c, ws w1 ∧ ws w2 ∧ unescape kb = some c ∧ b = w1 ++ (strToken kb ++ w2)

/-- Keys, other than strings, that are not written by the rule for integers or by their `MarshalText`
method: natively handled ones unless times are written as texts and durations as numbers, those with
another method, which comes first (finding 9), nil interfaces (finding 22) and, in a `sync.Map`, nil
pointers (finding 21). -/
inductive OddKey (W : World) (o : EncOpts) (k : TId) (ca : Bool) : Val → Prop
  | native {s x} : (W.E k).special = some s → ¬ (s = .time ∧ bmHas o.flags .unixTime = false ∧ (W.E k).meths.text = true) →
      ¬ (s = .duration ∧ o.durFmt ≠ .str ∧ (W.E k).meths.text = false) → OddKey W o k ca x
  | method {m x} : (W.E k).special = none → Picks W.E k ca m → m ≠ .text → OddKey W o k ca x
  | nilText : (W.E k).special = none → Picks W.E k ca .text → IsIface W.E k ∨ IsPtr W.E k → OddKey W o k ca .nil

/-- The reasons for the text of a value, as a whole, to be malformed. -/
inductive Spoils (ws : Bytes → Prop) (W : World) (M : MethV) (o : EncOpts) : TId → Bool → Val → Prop
  -- an `AppendJSON` or `AppendJSONContext` method appends something else; it is not checked
  | append {t ca m v rt x u path b} : (W.E t).special = none → Picks W.E t ca m → m = .appendCtx ∨ m = .append →
      Receives W.E W.ptrTo t m v rt x u → M path m (argCtx o m) rt x [] = .ok b → ¬ Formed ws b → Spoils ws W M o t ca v
  -- a `MarshalJSON` method returns something else; it is not checked with NoCompact
  | verbatim {t ca v rt x u path b} : (W.E t).special = none → Picks W.E t ca .json → Receives W.E W.ptrTo t .json v rt x u →
      M path .json none rt x [] = .ok b → bmHas o.flags .noCompact = true → ¬ Formed ws b → Spoils ws W M o t ca v
  -- a `MarshalText` method returns a text that needs escapes (finding 2)
  | text {t ca v rt x u path b} : (W.E t).special = none → Picks W.E t ca .text → Receives W.E W.ptrTo t .text v rt x u →
      M path .text none rt x [] = .ok b → unescape b = none → Spoils ws W M o t ca v
  -- the layout given for times makes texts that need escapes (finding 26)
  | layout {t ca x l} : (W.E t).special = some .time → bmHas o.flags .unixTime = false → o.layout = .other l →
      unescape (W.appendFormat x l) = none → Spoils ws W M o t ca (.time x)
  -- NoNumberValidation and a `json.Number` that is not even JSON
  | number {t ca s} : (W.E t).special = some .number → bmHas o.flags .noNumberValidation = true → s ≠ [] → ¬ Formed ws s →
      Spoils ws W M o t ca (.str s)
  -- a `json.RawMessage` that is not JSON (finding 7), not even without its whitespace
  | raw {t ca vs b c} : (W.E t).special = some .rawMessage → AsBytes vs b → CopiedAs o b c → (bmHas o.flags .noCompact = false → ∀ j, ¬ JsonText j b) →
      ¬ Formed ws c → Spoils ws W M o t ca (.slice vs)
  -- NoStringEscaping and a string that needs escapes
  | str {t ca s} : ByKind W.E t ca → (W.E t).kind = .string → bmHas o.flags .noStringEscaping = true → unescape s = none →
      Spoils ws W M o t ca (.str s)
  | bytes {t ca e vs b} : ByKind W.E t ca → (W.E t).kind = .slice e → ByteElem W.E e → bmHas o.flags .rawByteSlice = true →
      bmHas o.flags .noStringEscaping = true → AsBytes vs b → unescape b = none → Spoils ws W M o t ca (.slice vs)
  | byteArray {t ca n e vs b} : ByKind W.E t ca → (W.E t).kind = .array n e → ByteElem W.E e → bmHas o.flags .byteArrayAsString = true →
      bmHas o.flags .noStringEscaping = true → AsBytes vs b → unescape b = none → Spoils ws W M o t ca (.array vs)

/-- The reasons for a malformed member of an object. -/
inductive SpoilsMember (ws : Bytes → Prop) (W : World) (M : MethV) (o : EncOpts) : TId → Bool → Val → Prop
  -- NoStringEscaping and a key that needs escapes
  | keyStr {t ca k e kvs kv s} : ByKind W.E t ca → (W.E t).kind = .map k e → (W.E k).kind = .string → bmHas o.flags .noStringEscaping = true →
      kv ∈ kvs → kv.1 = .str s → unescape s = none → SpoilsMember ws W M o t ca (.map kvs)
  | skeyStr {t ca kvs kv d s} : (W.E t).special = some .syncMap → (W.E d).kind = .string → bmHas o.flags .noStringEscaping = true →
      kv ∈ kvs → kv.1 = .iface d (.str s) → unescape s = none → SpoilsMember ws W M o t ca (.smap kvs)
  -- a key that is not written as a string
  | key {t ca k e kvs kv b} : ByKind W.E t ca → (W.E t).kind = .map k e → (W.E k).kind ≠ .string → kv ∈ kvs → OddKey W o k false kv.1 →
      (IsPtr W.E k → kv.1 ≠ .nil) → KeyWrites W M o k kv.1 b → ¬ StrFormed ws b → SpoilsMember ws W M o t ca (.map kvs)
  | skey {t ca kvs kv d x b} : (W.E t).special = some .syncMap → (W.E d).kind ≠ .string → kv ∈ kvs → kv.1 = .iface d x →
      OddKey W o d (isPtrK (W.E d).kind) x → SyncKeyWrites W M o (.iface d x) b → ¬ StrFormed ws b → SpoilsMember ws W M o t ca (.smap kvs)
  -- the first member that is not left out is dropped for its text, and another is not (finding 1)
  | comma {t ca v m m' q q' x x' b b'} : ByKind W.E t ca → IsStruct W.E t → ChosenField W.U.isLetter W.U.isDigit W.E t m → ¬ LeftOut o v m →
      (∀ m0, ChosenField W.U.isLetter W.U.isDigit W.E t m0 → ¬ LeftOut o v m0 → m0 ≠ m → PathLt m.path m0.path) →
      FieldAt v m.path x → Writes W M o m.decl.typ ca q x b → NullDropped W.E m b →
      ChosenField W.U.isLetter W.U.isDigit W.E t m' → ¬ LeftOut o v m' →
      FieldAt v m'.path x' → Writes W M o m'.decl.typ ca q' x' b' → ¬ NullDropped W.E m' b' → SpoilsMember ws W M o t ca v

end Jettison.Spec
