import Verif.Spec.Utf8

/-! # Specification: tags and names -/

namespace Jettison.Spec

/-- Comma separated concatenation. -/
def joinComma : List Bytes → Bytes
  | [] => []
  | [x] => x
  | x :: y :: t => x ++ c! ',' :: joinComma (y :: t)

/-- Reading of a tag: a name without comma, then comma separated options. -/
def TagReading (tag name : Bytes) (opts : List Bytes) : Prop :=
  c! ',' ∉ name ∧ (∀ o ∈ opts, c! ',' ∉ o) ∧
    ((opts = [] ∧ tag = name) ∨ (opts ≠ [] ∧ tag = name ++ c! ',' :: joinComma opts))

/-- The characters allowed in a tag name: letters, digits and ASCII punctuation except
quote characters, backslash and comma; and space. (`letter`, `digit`: the Unicode
tables.) The documentation of encoding/json allows the semicolon too, which this
package does not: finding 24 of DESIGN.md, C57. -/
def TagChar (letter digit : Nat → Bool) (cp : Nat) : Prop :=
  cp ∈ (b! "!#$%&()*+-./:<=>?@[]^_{|}~ ").map UInt8.toNat ∨ letter cp = true ∨ digit cp = true

/-- A legal tag name. -/
def TagName (letter digit : Nat → Bool) (s : Bytes) : Prop :=
  s ≠ [] ∧ ∃ cps : List Nat, (∀ c ∈ cps, IsScalar c ∧ TagChar letter digit c) ∧ s = cps.flatMap utf8Encode

/-- What is assumed of the Unicode tables: on ASCII they are the ASCII letters and
digits, and U+FFFD (category So) is neither. -/
structure TablesOk (letter digit : Nat → Bool) : Prop where
  letter_ascii : ∀ c, c < 0x80 → (letter c = true ↔ (0x41 ≤ c ∧ c ≤ 0x5A) ∨ (0x61 ≤ c ∧ c ≤ 0x7A))
  digit_ascii : ∀ c, c < 0x80 → (digit c = true ↔ 0x30 ≤ c ∧ c ≤ 0x39)
  repl : letter 0xFFFD = false ∧ digit 0xFFFD = false

/-- A Go identifier: letters, digits and underscores. -/
def GoIdent (letter digit : Nat → Bool) (s : Bytes) : Prop :=
  s ≠ [] ∧ ∃ cps : List Nat,
    (∀ c ∈ cps, IsScalar c ∧ (letter c = true ∨ digit c = true ∨ c = 0x5F)) ∧ s = cps.flatMap utf8Encode

end Jettison.Spec
