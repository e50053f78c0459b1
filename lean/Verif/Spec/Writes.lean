import Verif.Spec.Faults

/-!
# Specification: the bytes of a value

`Writes W M o t ca q v b`: `b` is the text that a call writes for the value `v` of type `t` under
the options `o`, byte for byte; `ca` says that the value is addressable, `q` that it is a field
with the `string` tag option. Unlike `Denotes` (Spec/Doc), which gives the tree that the
documentation prescribes, it describes what is written, also where that is wrong (the findings
of DESIGN.md are marked). It is given rule by rule: no destination buffers, no instructions, no
memory. The texts of the entries of a map stand in the order of their keys, or in any order if
UnsortedMap is set.
-/

namespace Jettison.Spec
open Jettison Jettison.Model

/-! ## Strings -/

/-- The digits of hexadecimal numbers. -/
def hexLower (n : Nat) : UInt8 := (b! "0123456789abcdef").getD n 0

/-- The form `\u00xx` of a byte. -/
def uForm (c : UInt8) : Bytes := b! "\\u00" ++ [hexLower (c.toNat / 16), hexLower (c.toNat % 16)]

/-- The characters with a meaning in HTML. -/
def IsHtml (c : UInt8) : Prop := c = c! '<' ∨ c = c! '>' ∨ c = c! '&'

/-- U+2028 or U+2029 stands at the front. -/
def SepFirst (s : Bytes) : Prop := utf8Encode 0x2028 <+: s ∨ utf8Encode 0x2029 <+: s

/-- How the content of a string is spelled: `html` says that the characters with a meaning in HTML
are escaped, `coerce` that malformed UTF-8 is replaced and the separators are escaped. -/
inductive Spelling (html coerce : Bool) : Bytes → Bytes → Prop
  | nil : Spelling html coerce [] []
  | quote {s r} : Spelling html coerce s r → Spelling html coerce (c! '"' :: s) (b! "\\\"" ++ r)
  | backslash {s r} : Spelling html coerce s r → Spelling html coerce (c! '\\' :: s) (b! "\\\\" ++ r)
  | newline {s r} : Spelling html coerce s r → Spelling html coerce (c! '\n' :: s) (b! "\\n" ++ r)
  | ret {s r} : Spelling html coerce s r → Spelling html coerce (c! '\r' :: s) (b! "\\r" ++ r)
  | tab {s r} : Spelling html coerce s r → Spelling html coerce (c! '\t' :: s) (b! "\\t" ++ r)
  | control {c s r} : c.toNat < 0x20 → c ≠ c! '\n' → c ≠ c! '\r' → c ≠ c! '\t' → Spelling html coerce s r →
      Spelling html coerce (c :: s) (uForm c ++ r)
  | html {c s r} : html = true → IsHtml c → Spelling html coerce s r → Spelling html coerce (c :: s) (uForm c ++ r)
  | ascii {c s r} : 0x20 ≤ c.toNat → c.toNat < 0x80 → c ≠ c! '"' → c ≠ c! '\\' → (html = true → ¬ IsHtml c) →
      Spelling html coerce s r → Spelling html coerce (c :: s) ([c] ++ r)
  | sep8 {s r} : coerce = true → Spelling html coerce s r → Spelling html coerce (utf8Encode 0x2028 ++ s) (b! "\\u2028" ++ r)
  | sep9 {s r} : coerce = true → Spelling html coerce s r → Spelling html coerce (utf8Encode 0x2029 ++ s) (b! "\\u2029" ++ r)
  | char {cp s r} : IsScalar cp → 0x80 ≤ cp → (coerce = true → cp ≠ 0x2028 ∧ cp ≠ 0x2029) → Spelling html coerce s r →
      Spelling html coerce (utf8Encode cp ++ s) (utf8Encode cp ++ r)
  | replaced {c s r} : coerce = true → BadStart (c :: s) → Spelling html coerce s r → Spelling html coerce (c :: s) (b! "\\ufffd" ++ r)
  | kept {c s r} : coerce = false → BadStart (c :: s) → Spelling html coerce s r → Spelling html coerce (c :: s) ([c] ++ r)

/-- The spelling of the content of a string under the options. -/
inductive SpelledAs (o : EncOpts) (s : Bytes) : Bytes → Prop
  | raw : bmHas o.flags .noStringEscaping = true → SpelledAs o s s
  | escaped {r} : bmHas o.flags .noStringEscaping = false → Spelling (!bmHas o.flags .noHTMLEscaping) (!bmHas o.flags .noUTF8Coercion) s r →
      SpelledAs o s r

/-- The characters with a meaning in HTML and the separators in the name of a field are escaped. -/
inductive Marked : Bytes → Bytes → Prop
  | nil : Marked [] []
  | html {c s r} : IsHtml c → Marked s r → Marked (c :: s) (uForm c ++ r)
  | sep8 {s r} : Marked s r → Marked (utf8Encode 0x2028 ++ s) (b! "\\u2028" ++ r)
  | sep9 {s r} : Marked s r → Marked (utf8Encode 0x2029 ++ s) (b! "\\u2029" ++ r)
  | other {c s r} : ¬ IsHtml c → ¬ SepFirst (c :: s) → Marked s r → Marked (c :: s) ([c] ++ r)

/-- The spelling of the name of a field. -/
inductive NamedAs (o : EncOpts) (s : Bytes) : Bytes → Prop
  | raw : bmHas o.flags .noHTMLEscaping = true → NamedAs o s s
  | marked {r} : bmHas o.flags .noHTMLEscaping = false → Marked s r → NamedAs o s r

/-! ## Compaction -/

/-- Where a byte of a JSON text stands: outside of string literals, in one, after a backslash in one. -/
inductive Place | out | lit | esc

/-- The place after a separator (U+2028, U+2029), which is escaped. -/
def Place.sep : Place → Place | .out => .out | _ => .lit

/-- `Squeezed html pl s r`: what is left of a JSON text when whitespace outside of string literals
is removed, the separators are escaped and, with `html`, the characters with a meaning in HTML. -/
inductive Squeezed (html : Bool) : Place → Bytes → Bytes → Prop
  | nil {pl} : Squeezed html pl [] []
  | html {pl c s r} : html = true → IsHtml c → Squeezed html pl s r → Squeezed html pl (c :: s) (uForm c ++ r)
  | sep8 {pl s r} : Squeezed html (Place.sep pl) s r → Squeezed html pl (utf8Encode 0x2028 ++ s) (b! "\\u2028" ++ r)
  | sep9 {pl s r} : Squeezed html (Place.sep pl) s r → Squeezed html pl (utf8Encode 0x2029 ++ s) (b! "\\u2029" ++ r)
  | space {c s r} : c = c! ' ' ∨ c = c! '\n' ∨ c = c! '\r' ∨ c = c! '\t' → Squeezed html .out s r → Squeezed html .out (c :: s) r
  | begin {s r} : Squeezed html .lit s r → Squeezed html .out (c! '"' :: s) (b! "\"" ++ r)
  | out {c s r} : (html = true → ¬ IsHtml c) → ¬ SepFirst (c :: s) → c ≠ c! '"' → c ≠ c! ' ' → c ≠ c! '\n' → c ≠ c! '\r' → c ≠ c! '\t' →
      Squeezed html .out s r → Squeezed html .out (c :: s) ([c] ++ r)
  | close {s r} : Squeezed html .out s r → Squeezed html .lit (c! '"' :: s) (b! "\"" ++ r)
  | backslash {s r} : Squeezed html .esc s r → Squeezed html .lit (c! '\\' :: s) (b! "\\" ++ r)
  | lit {c s r} : (html = true → ¬ IsHtml c) → ¬ SepFirst (c :: s) → c ≠ c! '"' → c ≠ c! '\\' →
      Squeezed html .lit s r → Squeezed html .lit (c :: s) ([c] ++ r)
  | esc {c s r} : (html = true → ¬ IsHtml c) → ¬ SepFirst (c :: s) → Squeezed html .lit s r → Squeezed html .esc (c :: s) ([c] ++ r)

/-- A JSON text under the options: as it is with NoCompact, otherwise without whitespace. -/
inductive CopiedAs (o : EncOpts) (s : Bytes) : Bytes → Prop
  | verbatim : bmHas o.flags .noCompact = true → CopiedAs o s s
  | compact {r} : bmHas o.flags .noCompact = false → Squeezed (!bmHas o.flags .noHTMLEscaping) .out s r → CopiedAs o s r

/-! ## Numbers, times and durations -/

/-- How far `n / d` is from a float, in units of the least positive float, times `d`. -/
def offBy (w : FWidth) (n d bits : Nat) : Nat :=
  (finiteUnits w bits * d - n * w.one) + (n * w.one - finiteUnits w bits * d)

/-- The float is one nearest to `n / d`. -/
def Nearest (w : FWidth) (n d bits : Nat) : Prop := ∀ bits', offBy w n d bits ≤ offBy w n d bits'

/-- The absolute value is below the float for 10^-6, and not 0, or from the float for 10^21 on. -/
def Extreme (w : FWidth) (bits : Nat) : Prop :=
  finiteUnits w bits ≠ 0 ∧
    ((∃ c, Nearest w 1 (10 ^ 6) c ∧ finiteUnits w bits < finiteUnits w c) ∨ ∃ c, Nearest w (10 ^ 21) 1 c ∧ finiteUnits w c ≤ finiteUnits w bits)

/-- The text of a float, given those of the standard library without and with an exponent. -/
inductive FloatText (fmt : FloatFmt) (w : FWidth) (bits : Nat) : Bytes → Prop
  | plain : IsFinite w bits → ¬ Extreme w bits → FloatText fmt w bits (fmt w bits false)
  | exp : IsFinite w bits → Extreme w bits → (∀ p d, fmt w bits true ≠ p ++ b! "e-0" ++ [d]) → FloatText fmt w bits (fmt w bits true)
  | short {p d} : IsFinite w bits → Extreme w bits → fmt w bits true = p ++ b! "e-0" ++ [d] → FloatText fmt w bits (p ++ b! "e-" ++ [d])

/-- The text of a time. -/
inductive TimeText (W : World) (o : EncOpts) (x : GoTime) : Bytes → Prop
  | unix {b} : bmHas o.flags .unixTime = true → IntLiteral b x.unix → TimeText W o x b
  | rfc3339 {b} : bmHas o.flags .unixTime = false → o.layout = .rfc3339 → TimeWritten x false b → TimeText W o x (b! "\"" ++ b ++ b! "\"")
  | nano {b} : bmHas o.flags .unixTime = false → o.layout = .rfc3339Nano → TimeWritten x true b → TimeText W o x (b! "\"" ++ b ++ b! "\"")
  | layout {l} : bmHas o.flags .unixTime = false → o.layout = .other l → TimeText W o x (b! "\"" ++ W.appendFormat x l ++ b! "\"")

/-- The text of `ns` nanoseconds, as documented for the `String` method of `time.Duration`. -/
inductive ClockText : Nat → Bytes → Prop
  | zero : ClockText 0 (b! "0s")
  | ns {u : Nat} {i} : 0 < u → u < 1000 → IntLiteral i (u : Nat) → ClockText u (i ++ b! "ns")
  | us {u i f} : 1000 ≤ u → u < 1000000 → IntLiteral i (u / 1000 : Nat) → FracText f 3 (u % 1000) → ClockText u (i ++ f ++ b! "µs")
  | ms {u i f} : 1000000 ≤ u → u < 1000000000 → IntLiteral i (u / 1000000 : Nat) → FracText f 6 (u % 1000000) → ClockText u (i ++ f ++ b! "ms")
  | s {u i f} : 1000000000 ≤ u → u < 60000000000 → IntLiteral i (u / 1000000000 : Nat) → FracText f 9 (u % 1000000000) → ClockText u (i ++ f ++ b! "s")
  | m {u m i f} : 60000000000 ≤ u → u < 3600000000000 → IntLiteral m (u / 60000000000 : Nat) → IntLiteral i (u / 1000000000 % 60 : Nat) →
      FracText f 9 (u % 1000000000) → ClockText u (m ++ b! "m" ++ i ++ f ++ b! "s")
  | h {u h m i f} : 3600000000000 ≤ u → IntLiteral h (u / 3600000000000 : Nat) → IntLiteral m (u / 60000000000 % 60 : Nat) →
      IntLiteral i (u / 1000000000 % 60 : Nat) → FracText f 9 (u % 1000000000) → ClockText u (h ++ b! "h" ++ m ++ b! "m" ++ i ++ f ++ b! "s")

/-- The text of a duration. -/
inductive DurationText (W : World) (o : EncOpts) (d : Int64) : Bytes → Prop
  | str {b} : o.durFmt = .str → 0 ≤ d.toInt → ClockText d.toInt.natAbs b → DurationText W o d (b! "\"" ++ b ++ b! "\"")
  | neg {b} : o.durFmt = .str → d.toInt < 0 → ClockText d.toInt.natAbs b → DurationText W o d (b! "\"-" ++ b ++ b! "\"")
  | ns {b} : o.durFmt = .nanoseconds → IntLiteral b d.toInt → DurationText W o d b
  | us {b} : o.durFmt = .microseconds → IntLiteral b (d.toInt.tdiv 1000) → DurationText W o d b
  | ms {b} : o.durFmt = .milliseconds → IntLiteral b (d.toInt.tdiv 1000000) → DurationText W o d b
  | sec {b} : o.durFmt = .seconds → FloatText W.fmt .f64 (W.df.seconds d) b → DurationText W o d b
  | min {b} : o.durFmt = .minutes → FloatText W.fmt .f64 (W.df.minutes d) b → DurationText W o d b

/-! ## Values -/

/-- What is written of the result of a method: of `AppendJSON` what it appends, of `MarshalJSON` a
JSON text, compacted, of `MarshalText` the text between quotes, not escaped (finding 2). -/
inductive MethText (M : MethV) (o : EncOpts) (rt : TId) (x : Val) : MethKind → Bytes → Prop
  | ctx {path b} : M path .appendCtx o.ctx rt x [] = .ok b → MethText M o rt x .appendCtx b
  | app {path b} : M path .append none rt x [] = .ok b → MethText M o rt x .append b
  | json {path b c} : M path .json none rt x [] = .ok b → (bmHas o.flags .noCompact = false → ∃ j, JsonText j b) → CopiedAs o b c →
      MethText M o rt x .json c
  | text {path b} : M path .text none rt x [] = .ok b → MethText M o rt x .text (b! "\"" ++ b ++ b! "\"")

/-- The texts of the entries, in the order they are written. Keys that are sorted are at least a
pair of quotes (finding 9). -/
def InOrder (o : EncOpts) (ms ms' : List (Bytes × Bytes)) : Prop :=
  ms'.Perm ms ∧ (bmHas o.flags .unsortedMap = false → (ms'.Pairwise fun a b => ByteLe (keyBody a.1) (keyBody b.1)) ∧ ∀ m ∈ ms', 2 ≤ m.1.length)

/-- What stands before the members kept of those tried: a comma is left of a first one that is
dropped (finding 1). -/
inductive Lead (tried kept : List MField) : Bytes → Prop
  | none : kept = [] ∨ tried.head? = kept.head? → Lead tried kept []
  | comma : kept ≠ [] → tried.head? ≠ kept.head? → Lead tried kept (b! ",")

mutual
/-- The text of a value. -/
inductive Writes (W : World) (M : MethV) (o : EncOpts) : TId → Bool → Bool → Val → Bytes → Prop
  -- methods; with the `string` option too
  | methNil {t ca q m} : (W.E t).special = none → Picks W.E t ca m → MethSet.Has (W.E t).meths m → IsPtr W.E t ∨ IsIface W.E t →
      Writes W M o t ca q .nil (b! "null")
  | meth {t ca q m v rt x u b} : (W.E t).special = none → Picks W.E t ca m → Receives W.E W.ptrTo t m v rt x u →
      MethText M o rt x m b → Writes W M o t ca q v b
  -- natively handled types; the `string` option has no effect on them (finding 6)
  | time {t ca q x b} : (W.E t).special = some .time → HasYear x → TimeText W o x b → Writes W M o t ca q (.time x) b
  | duration {t ca q d b} : (W.E t).special = some .duration → DurationText W o d b → Writes W M o t ca q (.int (.int64 d)) b
  | number0 {t ca q} : (W.E t).special = some .number → Writes W M o t ca q (.str []) (b! "0")
  | number {t ca q s} : (W.E t).special = some .number → s ≠ [] → (bmHas o.flags .noNumberValidation = false → IsNumber s) →
      Writes W M o t ca q (.str s) s
  | rawNil {t ca q} : (W.E t).special = some .rawMessage → Writes W M o t ca q .nil (b! "null")
  | raw {t ca q vs b c} : (W.E t).special = some .rawMessage → AsBytes vs b → CopiedAs o b c → Writes W M o t ca q (.slice vs) c
  | smap {t ca q kvs ms ms'} : (W.E t).special = some .syncMap → ms.length = kvs.length →
      (∀ (i : Nat) kv m, kvs[i]? = some kv → ms[i]? = some m → SyncKeyWrites W M o kv.1 m.1) →
      (∀ (i : Nat) kv m d x, kvs[i]? = some kv → ms[i]? = some m → kv.2 = .iface d x → Writes W M o d (isPtrK (W.E d).kind) false x m.2) →
      (∀ kv ∈ kvs, kv.2 ≠ .nil) → InOrder o ms ms' →
      Writes W M o t ca q (.smap kvs) (objectOf ms')
  -- kinds
  | yes {t ca} : ByKind W.E t ca → (W.E t).kind = .bool → Writes W M o t ca false (.bool true) (b! "true")
  | no {t ca} : ByKind W.E t ca → (W.E t).kind = .bool → Writes W M o t ca false (.bool false) (b! "false")
  | int {t ca k x b} : ByKind W.E t ca → (W.E t).kind = .int k → IntLiteral b (intOf x) → Writes W M o t ca false (.int x) b
  | float {t ca w x b} : ByKind W.E t ca → (W.E t).kind = .float w → FloatText W.fmt w x b → Writes W M o t ca false (.float w x) b
  | str {t ca s b} : ByKind W.E t ca → (W.E t).kind = .string → SpelledAs o s b → Writes W M o t ca false (.str s) (b! "\"" ++ b ++ b! "\"")
  | quoted {t ca v b} : ByKind W.E t ca → isBasicK (W.E t).kind = true → (W.E t).kind ≠ .string → Writes W M o t ca false v b →
      Writes W M o t ca true v (b! "\"" ++ b ++ b! "\"")
  -- the content is escaped once (finding 3)
  | quotedStr {t ca s b} : ByKind W.E t ca → (W.E t).kind = .string → SpelledAs o s b → Writes W M o t ca true (.str s) (b! "\"\\\"" ++ b ++ b! "\\\"\"")
  | ptrNil {t ca q e} : ByKind W.E t ca → (W.E t).kind = .ptr e → Writes W M o t ca q .nil (b! "null")
  | ptr {t ca q e v b} : ByKind W.E t ca → (W.E t).kind = .ptr e → Writes W M o e true q v b → Writes W M o t ca q (.ptr v) b
  | ifaceNil {t ca k} : ByKind W.E t ca → (W.E t).kind = .iface k → Writes W M o t ca false .nil (b! "null")
  | iface {t ca k d x b} : ByKind W.E t ca → (W.E t).kind = .iface k → Writes W M o d (isPtrK (W.E d).kind) false x b →
      Writes W M o t ca false (.iface d x) b
  -- also with NilSliceEmpty (finding 4)
  | bytesNil {t ca e} : ByKind W.E t ca → (W.E t).kind = .slice e → ByteElem W.E e → Writes W M o t ca false .nil (b! "null")
  | bytes {t ca e vs x b} : ByKind W.E t ca → (W.E t).kind = .slice e → ByteElem W.E e → bmHas o.flags .rawByteSlice = false →
      AsBytes vs x → IsBase64 x b → Writes W M o t ca false (.slice vs) (b! "\"" ++ b ++ b! "\"")
  | rawBytes {t ca e vs x b} : ByKind W.E t ca → (W.E t).kind = .slice e → ByteElem W.E e → bmHas o.flags .rawByteSlice = true →
      AsBytes vs x → SpelledAs o x b → Writes W M o t ca false (.slice vs) (b! "\"" ++ b ++ b! "\"")
  | sliceNil {t ca e} : ByKind W.E t ca → (W.E t).kind = .slice e → ¬ ByteElem W.E e → bmHas o.flags .nilSliceEmpty = false →
      Writes W M o t ca false .nil (b! "null")
  | sliceNil0 {t ca e} : ByKind W.E t ca → (W.E t).kind = .slice e → ¬ ByteElem W.E e → bmHas o.flags .nilSliceEmpty = true →
      Writes W M o t ca false .nil (b! "[]")
  | slice {t ca e vs bs} : ByKind W.E t ca → (W.E t).kind = .slice e → ¬ ByteElem W.E e → bs.length = vs.length →
      (∀ (i : Nat) v b, vs[i]? = some v → bs[i]? = some b → Writes W M o e true false v b) →
      Writes W M o t ca false (.slice vs) (b! "[" ++ commas bs ++ b! "]")
  | byteArray {t ca n e vs x b} : ByKind W.E t ca → (W.E t).kind = .array n e → ByteElem W.E e → bmHas o.flags .byteArrayAsString = true →
      AsBytes vs x → SpelledAs o x b → Writes W M o t ca false (.array vs) (b! "\"" ++ b ++ b! "\"")
  | array {t ca n e vs bs} : ByKind W.E t ca → (W.E t).kind = .array n e → (ByteElem W.E e → bmHas o.flags .byteArrayAsString = false) →
      bs.length = vs.length → (∀ (i : Nat) v b, vs[i]? = some v → bs[i]? = some b → Writes W M o e ca false v b) →
      Writes W M o t ca false (.array vs) (b! "[" ++ commas bs ++ b! "]")
  | mapNil {t ca k e} : ByKind W.E t ca → (W.E t).kind = .map k e → KeyType W.E k → bmHas o.flags .nilMapEmpty = false → Writes W M o t ca false .nil (b! "null")
  | mapNil0 {t ca k e} : ByKind W.E t ca → (W.E t).kind = .map k e → KeyType W.E k → bmHas o.flags .nilMapEmpty = true → Writes W M o t ca false .nil (b! "{}")
  | map {t ca k e kvs ms ms'} : ByKind W.E t ca → (W.E t).kind = .map k e → KeyType W.E k → ms.length = kvs.length →
      (∀ (i : Nat) kv m, kvs[i]? = some kv → ms[i]? = some m → KeyWrites W M o k kv.1 m.1) →
      (∀ (i : Nat) kv m, kvs[i]? = some kv → ms[i]? = some m → Writes W M o e false false kv.2 m.2) → InOrder o ms ms' →
      Writes W M o t ca false (.map kvs) (objectOf ms')
  | struct {t ca v} {l tried kept : List MField} {q' : MField → Bool} {x : MField → Val} {b key : MField → Bytes} {c : Bytes} :
      ByKind W.E t ca → IsStruct W.E t → MembersOf W.U.isLetter W.U.isDigit W.E t l → tried.Sublist l →
      (∀ m ∈ l, m ∈ tried ↔ ¬ LeftOut o v m) → (∀ m ∈ tried, FieldAt v m.path (x m)) →
      (∀ m ∈ tried, q' m = true ↔ HasOpt m.decl (b! "string") ∧ BasicOrPtr W.E m.decl.typ) →
      (∀ m, m ∈ tried → Writes W M o m.decl.typ ca (q' m) (x m) (b m)) →
      kept.Sublist tried → (∀ m ∈ tried, m ∈ kept ↔ ¬ NullDropped W.E m (b m)) → (∀ m ∈ kept, NamedAs o m.name (key m)) → Lead tried kept c →
      Writes W M o t ca false v (b! "{" ++ c ++
        commas (kept.map fun m => b! "\"" ++ key m ++ b! "\":" ++ b m) ++ b! "}")

/-- The text of a key of a map. Texts are written as they are, also when they are not strings
(finding 9). -/
inductive KeyWrites (W : World) (M : MethV) (o : EncOpts) : TId → Val → Bytes → Prop
  | str {kt s b} : (W.E kt).kind = .string → SpelledAs o s b → KeyWrites W M o kt (.str s) (b! "\"" ++ b ++ b! "\"")
  | nilText {kt} : (W.E kt).kind ≠ .string → (W.E kt).meths.text = true → IsPtr W.E kt → KeyWrites W M o kt .nil (b! "\"\"")
  | text {kt x b} : (W.E kt).kind ≠ .string → (W.E kt).meths.text = true → (IsPtr W.E kt → x ≠ .nil) → Writes W M o kt false false x b →
      KeyWrites W M o kt x b
  | quoted {kt x b} : (W.E kt).kind ≠ .string → (W.E kt).meths.text = false → Writes W M o kt false false x b →
      KeyWrites W M o kt x (b! "\"" ++ b ++ b! "\"")

/-- The text of a key of a `sync.Map`. A nil pointer is written like any other value of its type
(finding 21). -/
inductive SyncKeyWrites (W : World) (M : MethV) (o : EncOpts) : Val → Bytes → Prop
  | str {kt s b} : (W.E kt).kind = .string → SpelledAs o s b → SyncKeyWrites W M o (.iface kt (.str s)) (b! "\"" ++ b ++ b! "\"")
  | text {kt x b} : (W.E kt).kind ≠ .string → (W.E kt).meths.text = true → Writes W M o kt (isPtrK (W.E kt).kind) false x b →
      SyncKeyWrites W M o (.iface kt x) b
  | quoted {kt k x b} : (W.E kt).kind = .int k → (W.E kt).meths.text = false → Writes W M o kt (isPtrK (W.E kt).kind) false x b →
      SyncKeyWrites W M o (.iface kt x) (b! "\"" ++ b ++ b! "\"")
end

/-- All times are Go times: `Unix` is an int64, and the nanoseconds are below a second. -/
def TimesFine (W : World) (t : TId) (v : Val) : Prop :=
  ∀ t' x, Within W.E t v t' (.time x) → (-9223372036854775808 ≤ x.unix ∧ x.unix < 9223372036854775808) ∧ x.nsec < 1000000000

end Jettison.Spec
