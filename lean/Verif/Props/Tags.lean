import Verif.Proofs.Tags
import Verif.Proofs.Parser

/-! # Field keys and tags (C40, C41) -/

namespace Jettison.Props
open Jettison.Spec Jettison.Model Jettison.Proofs

/-- C41: the parsed tag is the only reading of the tag as a comma-free name
followed by comma separated options. -/
theorem C41_parse_tag (tag : Bytes) :
    TagReading tag (parseTag tag).1 (parseTag tag).2 ∧
    ∀ name opts, TagReading tag name opts → (name, opts) = parseTag tag := by
  refine ⟨parseTag_reading tag, fun name opts h => ?_⟩
  obtain ⟨h1, h2⟩ := tagReading_unique h (parseTag_reading tag)
  rw [h1, h2]

/-- C41: an option is present iff it is one of the comma separated items. -/
theorem C41_contains (tag name opt : Bytes) (opts : List Bytes) (h : TagReading tag name opts) :
    tagContains (parseTag tag).2 opt = true ↔ opt ∈ opts := by
  obtain ⟨-, h2⟩ := tagReading_unique h (parseTag_reading tag)
  rw [tagContains_iff, ← h2]

example : TagReading (b! "na me,,omitempty,x") (b! "na me") [[], b! "omitempty", b! "x"] :=
  ⟨by decide, by decide, Or.inr ⟨by decide, by decide⟩⟩

/-- C40: the name of a field is the tag's name when that is a legal name, and the
Go field name otherwise. -/
theorem C40_field_name (U : UnicodeTab) (hU : TablesOk U.isLetter U.isDigit) (tag goName : Bytes) :
    (TagName U.isLetter U.isDigit (parseTag tag).1 → fieldName U tag goName = ((parseTag tag).1, true)) ∧
    (¬ TagName U.isLetter U.isDigit (parseTag tag).1 → fieldName U tag goName = (goName, false)) := by
  unfold fieldName
  constructor
  · intro h
    have := (isValidFieldName_iff hU _).2 h
    simp [h.1, this]
  · intro h
    have : isValidFieldName U (parseTag tag).1 = false := by
      rw [Bool.eq_false_iff]; exact fun e => h ((isValidFieldName_iff hU _).1 e)
    simp [this]

/-- C40: whatever the tag, both forms of the key are a JSON string token followed by
a colon, and decode to the field's name; the HTML-safe form has no raw `<`, `>`, `&`. -/
theorem C40_key (U : UnicodeTab) (hU : TablesOk U.isLetter U.isDigit) (tag goName : Bytes)
    (hgo : GoIdent U.isLetter U.isDigit goName) :
    let name := (fieldName U tag goName).1
    (∃ body, keyNonEsc name = strToken body ++ [c! ':'] ∧ unescape body = some name) ∧
    (∃ body, keyEscHTML name = strToken body ++ [c! ':'] ∧ unescape body = some name ∧
      ∀ c ∈ body, c ≠ c! '<' ∧ c ≠ c! '>' ∧ c ≠ c! '&') := by
  have hn : TagName U.isLetter U.isDigit (fieldName U tag goName).1 := by
    by_cases h : TagName U.isLetter U.isDigit (parseTag tag).1
    · rw [(C40_field_name U hU tag goName).1 h]; exact h
    · rw [(C40_field_name U hU tag goName).2 h]; exact goIdent_tagName hgo
  have hp := name_plain hU hn
  refine ⟨⟨_, by simp [keyNonEsc, strToken], unescape_iff_body.2 (plain_body hp)⟩,
    ⟨htmlEscape (fieldName U tag goName).1, by simp [keyEscHTML, strToken], ?_, htmlEscape_safe 0 _⟩⟩
  exact unescape_iff_body.2 (by simpa [htmlEscape] using htmlEscape_body 0 _ hp)

/-- Tables for the examples: ASCII only. -/
def asciiTab : UnicodeTab where
  isLetter c := (0x41 ≤ c && c ≤ 0x5A) || (0x61 ≤ c && c ≤ 0x7A)
  isDigit c := 0x30 ≤ c && c ≤ 0x39

example : TablesOk asciiTab.isLetter asciiTab.isDigit where
  letter_ascii c _ := by simp [asciiTab]
  digit_ascii c _ := by simp [asciiTab]
  repl := by decide
example : GoIdent asciiTab.isLetter asciiTab.isDigit (b! "A_1") :=
  ⟨by simp, [0x41, 0x5F, 0x31], by decide, by decide⟩
example : fieldName asciiTab (b! "a<b>&,string") (b! "F") = (b! "a<b>&", true) ∧
    fieldName asciiTab (b! "a\"b") (b! "F") = (b! "F", false) ∧
    keyEscHTML (b! "a<b>&") = b! "\"a\\u003cb\\u003e\\u0026\":" := by decide +kernel

end Jettison.Props
