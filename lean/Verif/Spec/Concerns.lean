import Verif.Spec.Writes

/-!
# Specification: what an option is about, by content

`Concerned W o o' t ca v`: the settings `o` and `o'` differ in one that is about the value `v` of type
`t`, leaving aside its parts. For each setting the rule says which values it is about.
-/

namespace Jettison.Spec
open Jettison Jettison.Model

/-- The flag is set in both or in none. -/
def SameFlag (f : Flag) (o o' : EncOpts) : Prop := bmHas o.flags f = bmHas o'.flags f

/-- Printable, ASCII, and none of `"`, `\`, `<`, `>`, `&`. -/
def ClearChar (c : UInt8) : Prop := 0x20 ≤ c.toNat ∧ c.toNat < 0x80 ∧ c ≠ c! '"' ∧ c ≠ c! '\\' ∧ ¬ IsHtml c

/-- The settings do not differ in one that is about a string with the content `s`: strings of clear
characters are written as they are. NoHTMLEscaping is
about `<`, `>` and `&`, NoUTF8Coercion about what is not ASCII, both without NoStringEscaping only. -/
def TextSame (o o' : EncOpts) (s : Bytes) : Prop :=
  (∀ c ∈ s, ClearChar c) ∨ (SameFlag .noStringEscaping o o' ∧ (bmHas o.flags .noStringEscaping = false →
    (SameFlag .noHTMLEscaping o o' ∨ ∀ c ∈ s, ¬ IsHtml c) ∧ (SameFlag .noUTF8Coercion o o' ∨ ∀ c ∈ s, c.toNat < 0x80)))

/-- The settings do not differ in one that is about a field named `s`. -/
def NameSame (o o' : EncOpts) (s : Bytes) : Prop := SameFlag .noHTMLEscaping o o' ∨ ∀ c ∈ s, ¬ IsHtml c ∧ c.toNat < 0x80

/-- The settings do not differ in one that is about JSON texts. -/
def CopySame (o o' : EncOpts) : Prop := SameFlag .noCompact o o' ∧ (bmHas o.flags .noCompact = false → SameFlag .noHTMLEscaping o o')

/-- The settings do not differ in one that is about times. -/
def TimeSame (o o' : EncOpts) : Prop := SameFlag .unixTime o o' ∧ (bmHas o.flags .unixTime = false → o.layout = o'.layout)

/-- The settings do not differ in one that is about the order of `n` entries: they are sorted, or
there is at most one. -/
def OrderSame (o o' : EncOpts) (n : Nat) : Prop :=
  n = 0 ∨ (SameFlag .unsortedMap o o' ∧ (n = 1 ∨ bmHas o.flags .unsortedMap = false))

/-- The settings differ in one that is about the value. -/
inductive Concerned (W : World) (o o' : EncOpts) : TId → Bool → Val → Prop
  -- natively handled types
  | time {t ca x} : (W.E t).special = some .time → ¬ TimeSame o o' → Concerned W o o' t ca (.time x)
  | duration {t ca x} : (W.E t).special = some .duration → o.durFmt ≠ o'.durFmt → Concerned W o o' t ca (.int x)
  | number {t ca s} : (W.E t).special = some .number → s ≠ [] → ¬ IsNumber s → ¬ SameFlag .noNumberValidation o o' → Concerned W o o' t ca (.str s)
  | raw {t ca vs} : (W.E t).special = some .rawMessage → ¬ CopySame o o' → Concerned W o o' t ca (.slice vs)
  | skey {t ca kvs kv d s} : (W.E t).special = some .syncMap → kv ∈ kvs → kv.1 = .iface d (.str s) → (W.E d).kind = .string → ¬ TextSame o o' s →
      Concerned W o o' t ca (.smap kvs)
  | sorder {t ca kvs} : (W.E t).special = some .syncMap → ¬ OrderSame o o' kvs.length → Concerned W o o' t ca (.smap kvs)
  -- methods
  | ctx {t ca v rt x u} : (W.E t).special = none → Picks W.E t ca .appendCtx → Receives W.E W.ptrTo t .appendCtx v rt x u → o.ctx ≠ o'.ctx →
      Concerned W o o' t ca v
  | json {t ca v rt x u} : (W.E t).special = none → Picks W.E t ca .json → Receives W.E W.ptrTo t .json v rt x u → ¬ CopySame o o' →
      Concerned W o o' t ca v
  -- kinds
  | str {t ca s} : ByKind W.E t ca → (W.E t).kind = .string → ¬ TextSame o o' s → Concerned W o o' t ca (.str s)
  | bytes {t ca e vs} : ByKind W.E t ca → (W.E t).kind = .slice e → ByteElem W.E e → ¬ SameFlag .rawByteSlice o o' → Concerned W o o' t ca (.slice vs)
  | rawBytes {t ca e vs x} : ByKind W.E t ca → (W.E t).kind = .slice e → ByteElem W.E e → bmHas o.flags .rawByteSlice = true → AsBytes vs x →
      ¬ TextSame o o' x → Concerned W o o' t ca (.slice vs)
  | nilSlice {t ca e} : ByKind W.E t ca → (W.E t).kind = .slice e → ¬ ByteElem W.E e → ¬ SameFlag .nilSliceEmpty o o' → Concerned W o o' t ca .nil
  | array {t ca n e vs} : ByKind W.E t ca → (W.E t).kind = .array n e → ByteElem W.E e → ¬ SameFlag .byteArrayAsString o o' → Concerned W o o' t ca (.array vs)
  | byteArray {t ca n e vs x} : ByKind W.E t ca → (W.E t).kind = .array n e → ByteElem W.E e → bmHas o.flags .byteArrayAsString = true → AsBytes vs x →
      ¬ TextSame o o' x → Concerned W o o' t ca (.array vs)
  | nilMap {t ca k e} : ByKind W.E t ca → (W.E t).kind = .map k e → ¬ SameFlag .nilMapEmpty o o' → Concerned W o o' t ca .nil
  | key {t ca k e kvs kv s} : ByKind W.E t ca → (W.E t).kind = .map k e → (W.E k).kind = .string → kv ∈ kvs → kv.1 = .str s → ¬ TextSame o o' s →
      Concerned W o o' t ca (.map kvs)
  | order {t ca k e kvs} : ByKind W.E t ca → (W.E t).kind = .map k e → ¬ OrderSame o o' kvs.length → Concerned W o o' t ca (.map kvs)
  | lists {t ca v m} : ByKind W.E t ca → IsStruct W.E t → ChosenField W.U.isLetter W.U.isDigit W.E t m →
      ¬ (Hidden o.allowList o.denyList m.name ↔ Hidden o'.allowList o'.denyList m.name) → Concerned W o o' t ca v
  | name {t ca v m} : ByKind W.E t ca → IsStruct W.E t → ChosenField W.U.isLetter W.U.isDigit W.E t m → ¬ LeftOut o v m → ¬ NameSame o o' m.name →
      Concerned W o o' t ca v

/-- The settings do not differ in one that is about a part of the value that is encoded. -/
def Unconcerned (W : World) (o o' : EncOpts) (t : TId) (ca : Bool) (v : Val) : Prop :=
  ∀ t' ca' v', Encodes W o t ca v t' ca' v' → ¬ Concerned W o o' t' ca' v'

end Jettison.Spec
