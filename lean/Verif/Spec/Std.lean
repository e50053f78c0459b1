import Verif.Spec.Writes
import Verif.Spec.Peel

/-!
# Specification: the bytes that encoding/json writes

`StdWrites W M t ca q v b`: `b` is what `json.Marshal` of the standard library (Go 1.17 to 1.21)
writes for the value `v` of type `t`; `ca` says that the value is addressable, `q` that it is a
field with the `string` tag option. It is written from the documentation of encoding/json and,
where that is silent (how strings are spelled, how floats are, what is addressable), from its
known behaviour; nothing in it is about jettison. The members of a struct are those of `MembersOf`,
the rule of C49, which is that of encoding/json (finding 16 is a property of both). The module is not among the sources at hand, so
this file is part of the trusted base of C57 and of nothing else.

`StdAlike` are the values on which jettison claims, or at least keeps, the same behaviour: what it
excludes is either documented as a difference (/repo/README.md) or a finding of DESIGN.md.
-/

namespace Jettison.Spec
open Jettison Jettison.Model

/-- The characters allowed in the name of a tag are those of `TagChar` and the semicolon. -/
def stdLetter (letter : Nat → Bool) (c : Nat) : Bool := letter c || c == 0x3B

/-- The type is encoded by its kind. -/
structure StdKind (E : Env) (t : TId) (ca : Bool) : Prop where
  special : (E t).special = none
  json : ¬ Available E t ca .json
  text : ¬ Available E t ca .text

/-- The method used: `MarshalJSON`, otherwise `MarshalText`. -/
inductive StdPicks (E : Env) (t : TId) (ca : Bool) : MethKind → Prop
  | json : Available E t ca .json → StdPicks E t ca .json
  | text : ¬ Available E t ca .json → Available E t ca .text → StdPicks E t ca .text

/-- The JSON text of a time: RFC 3339 with nanoseconds, in a zone less than a day from UTC. -/
def StdTime (x : GoTime) (b : Bytes) : Prop := IsRFC3339 x true b ∧ -86400 < x.offset ∧ x.offset < 86400

/-- What is written of the result of a method: a JSON text without whitespace, a text as a string. -/
inductive StdMeth (M : MethV) (rt : TId) (x : Val) : MethKind → Bytes → Prop
  | json {path r j b} : M path .json none rt x [] = .ok r → JsonText j r → Squeezed true .out r b → StdMeth M rt x .json b
  | text {path r b} : M path .text none rt x [] = .ok r → Spelling true true r b → StdMeth M rt x .text (b! "\"" ++ b ++ b! "\"")

/-- The name of the member for a key of a map: a string itself, what `MarshalText` returns (nothing
for a nil pointer), an integer in decimal. -/
inductive StdKey (W : World) (M : MethV) (k : TId) : Val → Bytes → Prop
  | str {s} : (W.E k).kind = .string → StdKey W M k (.str s) s
  | nilText : (W.E k).kind ≠ .string → (W.E k).meths.text = true → IsPtr W.E k → StdKey W M k .nil []
  | text {x rt y u path s} : (W.E k).kind ≠ .string → (W.E k).special ≠ some .time → (W.E k).meths.text = true →
      Receives W.E W.ptrTo k .text x rt y u → M path .text none rt y [] = .ok s → StdKey W M k x s
  | time {x s} : (W.E k).kind ≠ .string → (W.E k).special = some .time → (W.E k).meths.text = true → StdTime x s → StdKey W M k (.time x) s
  | int {n x s} : (W.E k).kind = .int n → (W.E k).meths.text = false → IntLiteral s (intOf x) → StdKey W M k (.int x) s

/-- The way to the field leads through an embedded pointer, so that it is addressable. -/
inductive ThroughPtr : Val → List Nat → Prop
  | here {vs i j is y} : vs[i]? = some (.ptr y) → ThroughPtr (.struct vs) (i :: j :: is)
  | embed {vs i j is ws} : vs[i]? = some (.struct ws) → ThroughPtr (.struct ws) (j :: is) → ThroughPtr (.struct vs) (i :: j :: is)

/-- The value leaves the member out. -/
def StdLeftOut (v : Val) (m : MField) : Prop :=
  BehindNil v m.path ∨ ∃ x, FieldAt v m.path x ∧ HasOpt m.decl (b! "omitempty") ∧ EmptyVal x

/-- The members in the order of their names. -/
def StdOrder (ms ms' : List (Bytes × Bytes)) : Prop := ms'.Perm ms ∧ ms'.Pairwise fun a b => ByteLe a.1 b.1

/-- A key as it is written. -/
def StdName (s b : Bytes) : Prop := ∃ r, Spelling true true s r ∧ b = b! "\"" ++ r ++ b! "\""

/-- The text of a value. -/
inductive StdWrites (W : World) (M : MethV) : TId → Bool → Bool → Val → Bytes → Prop
  -- methods
  | methNil {t ca q m} : (W.E t).special = none → StdPicks W.E t ca m → MethSet.Has (W.E t).meths m → IsPtr W.E t ∨ IsIface W.E t →
      StdWrites W M t ca q .nil (b! "null")
  | meth {t ca q m v rt x u b} : (W.E t).special = none → StdPicks W.E t ca m → Receives W.E W.ptrTo t m v rt x u →
      StdMeth M rt x m b → StdWrites W M t ca q v b
  -- types of the standard library: `time.Time` and `json.RawMessage` by their methods, `json.Number`
  -- as a number, `time.Duration` as the integer it is, `sync.Map` as a struct without exported fields
  | time {t ca q x b} : (W.E t).special = some .time → StdTime x b → StdWrites W M t ca q (.time x) (b! "\"" ++ b ++ b! "\"")
  | duration {t ca d b} : (W.E t).special = some .duration → IntLiteral b d.toInt → StdWrites W M t ca false (.int (.int64 d)) b
  | durationTag {t ca d b} : (W.E t).special = some .duration → IntLiteral b d.toInt →
      StdWrites W M t ca true (.int (.int64 d)) (b! "\"" ++ b ++ b! "\"")
  | number0 {t ca} : (W.E t).special = some .number → StdWrites W M t ca false (.str []) (b! "0")
  | number0Tag {t ca} : (W.E t).special = some .number → StdWrites W M t ca true (.str []) (b! "\"0\"")
  | number {t ca s} : (W.E t).special = some .number → s ≠ [] → IsNumber s → StdWrites W M t ca false (.str s) s
  | numberTag {t ca s} : (W.E t).special = some .number → s ≠ [] → IsNumber s → StdWrites W M t ca true (.str s) (b! "\"" ++ s ++ b! "\"")
  | rawNil {t ca q} : (W.E t).special = some .rawMessage → StdWrites W M t ca q .nil (b! "null")
  | raw {t ca q vs r j b} : (W.E t).special = some .rawMessage → AsBytes vs r → JsonText j r → Squeezed true .out r b →
      StdWrites W M t ca q (.slice vs) b
  | smap {t ca q kvs} : (W.E t).special = some .syncMap → StdWrites W M t ca q (.smap kvs) (b! "{}")
  -- kinds
  | yes {t ca} : StdKind W.E t ca → (W.E t).kind = .bool → StdWrites W M t ca false (.bool true) (b! "true")
  | no {t ca} : StdKind W.E t ca → (W.E t).kind = .bool → StdWrites W M t ca false (.bool false) (b! "false")
  | int {t ca k x b} : StdKind W.E t ca → (W.E t).kind = .int k → IntLiteral b (intOf x) → StdWrites W M t ca false (.int x) b
  | float {t ca w x b} : StdKind W.E t ca → (W.E t).kind = .float w → FloatText W.fmt w x b → StdWrites W M t ca false (.float w x) b
  | str {t ca s b} : StdKind W.E t ca → (W.E t).kind = .string → Spelling true true s b →
      StdWrites W M t ca false (.str s) (b! "\"" ++ b ++ b! "\"")
  | quoted {t ca v b} : StdKind W.E t ca → isBasicK (W.E t).kind = true → (W.E t).kind ≠ .string → StdWrites W M t ca false v b →
      StdWrites W M t ca true v (b! "\"" ++ b ++ b! "\"")
  -- the string is encoded, and the text as a string again
  | quotedStr {t ca s b c} : StdKind W.E t ca → (W.E t).kind = .string → Spelling true true s b →
      Spelling false true (b! "\"" ++ b ++ b! "\"") c → StdWrites W M t ca true (.str s) (b! "\"" ++ c ++ b! "\"")
  | ptrNil {t ca q e} : StdKind W.E t ca → (W.E t).kind = .ptr e → StdWrites W M t ca q .nil (b! "null")
  | ptr {t ca q e v b} : StdKind W.E t ca → (W.E t).kind = .ptr e → StdWrites W M e true q v b → StdWrites W M t ca q (.ptr v) b
  | ifaceNil {t ca k} : StdKind W.E t ca → (W.E t).kind = .iface k → StdWrites W M t ca false .nil (b! "null")
  | iface {t ca k d x b} : StdKind W.E t ca → (W.E t).kind = .iface k → StdWrites W M d false false x b →
      StdWrites W M t ca false (.iface d x) b
  | bytesNil {t ca e} : StdKind W.E t ca → (W.E t).kind = .slice e → StdWrites W M t ca false .nil (b! "null")
  | bytes {t ca e vs x b} : StdKind W.E t ca → (W.E t).kind = .slice e → ByteElem W.E e → AsBytes vs x → IsBase64 x b →
      StdWrites W M t ca false (.slice vs) (b! "\"" ++ b ++ b! "\"")
  | slice {t ca e vs bs} : StdKind W.E t ca → (W.E t).kind = .slice e → ¬ ByteElem W.E e → bs.length = vs.length →
      (∀ (i : Nat) v b, vs[i]? = some v → bs[i]? = some b → StdWrites W M e true false v b) →
      StdWrites W M t ca false (.slice vs) (b! "[" ++ commas bs ++ b! "]")
  | array {t ca n e vs bs} : StdKind W.E t ca → (W.E t).kind = .array n e → bs.length = vs.length →
      (∀ (i : Nat) v b, vs[i]? = some v → bs[i]? = some b → StdWrites W M e ca false v b) →
      StdWrites W M t ca false (.array vs) (b! "[" ++ commas bs ++ b! "]")
  | mapNil {t ca k e} : StdKind W.E t ca → (W.E t).kind = .map k e → KeyType W.E k → StdWrites W M t ca false .nil (b! "null")
  | map {t ca k e kvs ms ms'} {names : List Bytes} : StdKind W.E t ca → (W.E t).kind = .map k e → KeyType W.E k → ms.length = kvs.length →
      (∀ (i : Nat) kv m, kvs[i]? = some kv → ms[i]? = some m → StdKey W M k kv.1 m.1) →
      (∀ (i : Nat) kv m, kvs[i]? = some kv → ms[i]? = some m → StdWrites W M e false false kv.2 m.2) → StdOrder ms ms' →
      names.length = ms'.length → (∀ (i : Nat) m s, ms'[i]? = some m → names[i]? = some s → StdName m.1 s) →
      StdWrites W M t ca false (.map kvs) (objectOf (names.zip (ms'.map Prod.snd)))
  | struct {t ca v} {l kept : List MField} {q' ca' : MField → Bool} {x : MField → Val} {b key : MField → Bytes} :
      StdKind W.E t ca → IsStruct W.E t → MembersOf (stdLetter W.U.isLetter) W.U.isDigit W.E t l → kept.Sublist l →
      (∀ m ∈ l, m ∈ kept ↔ ¬ StdLeftOut v m) → (∀ m ∈ kept, FieldAt v m.path (x m)) →
      (∀ m ∈ kept, q' m = true ↔ HasOpt m.decl (b! "string") ∧ BasicOrPtr W.E m.decl.typ) →
      (∀ m ∈ kept, ca' m = true ↔ ca = true ∨ ThroughPtr v m.path) →
      (∀ m, m ∈ kept → StdWrites W M m.decl.typ (ca' m) (q' m) (x m) (b m)) → (∀ m ∈ kept, Marked m.name (key m)) →
      StdWrites W M t ca false v (b! "{" ++ commas (kept.map fun m => b! "\"" ++ key m ++ b! "\":" ++ b m) ++ b! "}")

/-! ## The values that are written alike -/

/-- With the `string` tag option: no type of the standard library (finding 6), and no string with
characters to be escaped (finding 3). -/
structure TagAlike (W : World) (t : TId) (v : Val) : Prop where
  native : (W.E t).special = none ∧ ∀ e, (W.E t).kind = .ptr e → (W.E e).special = none
  plain : ∀ s, v = .str s ∨ v = .ptr (.str s) → Spelling true true s s

/-- What is asked of a value, its parts not considered. -/
structure StdAlikeAt (W : World) (M : MethV) (t : TId) (v : Val) : Prop where
  /-- no `sync.Map` (README) -/
  smap : (W.E t).special ≠ some .syncMap
  /-- no methods of `AppendMarshaler` and `AppendMarshalerCtx` (README) -/
  append : ∀ m, m = .append ∨ m = .appendCtx → ¬ MethSet.Has (W.E t).meths m ∧ ¬ MethSet.Has (W.E t).pmeths m
  /-- no `omitnil` (README) -/
  omitnil : ∀ m, ChosenField W.U.isLetter W.U.isDigit W.E t m → ¬ HasOpt m.decl (b! "omitnil")
  /-- the texts of `MarshalText` need no escapes (finding 2) -/
  text : ∀ rt x u path b, Receives W.E W.ptrTo t .text v rt x u → M path .text none rt x [] = .ok b → Spelling true true b b
  /-- a `json.RawMessage` is JSON (finding 7) -/
  raw : ∀ vs b, (W.E t).special = some .rawMessage → v = .slice vs → AsBytes vs b → ∃ j, JsonText j b
  /-- times are from 0000-12-31 on (finding 5) -/
  year : ∀ x, v = .time x → FromDec31 x
  /-- times are less than a day from UTC -/
  zone : ∀ x, v = .time x → -86400 < x.offset ∧ x.offset < 86400
  /-- keys use the method or the kind that they should (findings 9 and 22) -/
  key : ∀ k e kvs kv, (W.E t).kind = .map k e → v = .map kvs → kv ∈ kvs → KeyFine W defaultEncOpts k kv.1
  /-- escaping does not change the order of string keys (finding 23) -/
  order : ∀ k e kvs kv kv' s s' r r', (W.E t).kind = .map k e → v = .map kvs → kv ∈ kvs → kv' ∈ kvs → kv.1 = .str s → kv'.1 = .str s' →
    Spelling true true s r → Spelling true true s' r' → (ByteLe r r' ↔ ByteLe s s')
  /-- the `string` option -/
  tag : ∀ m x, ChosenField W.U.isLetter W.U.isDigit W.E t m → FieldAt v m.path x → HasOpt m.decl (b! "string") → BasicOrPtr W.E m.decl.typ →
    TagAlike W m.decl.typ x
  /-- fields behind embedded pointers do not depend on being addressable (finding 17) -/
  embed : ∀ m x, ChosenField W.U.isLetter W.U.isDigit W.E t m → FieldAt v m.path x → ThroughPtr v m.path →
    NoPtrMeths W.E m.decl.typ x

/-- The value and all its parts are written alike. -/
def StdAlike (W : World) (M : MethV) (t : TId) (v : Val) : Prop := ∀ t' v', Within W.E t v t' v' → StdAlikeAt W M t' v'

/-- No name in a tag of the program has a semicolon (finding 24). -/
def NoSemicolons (E : Env) : Prop := ∀ u fs sf nm opts, HasFields E u fs → sf ∈ fs → TagReading sf.tag nm opts → c! ';' ∉ nm

end Jettison.Spec
