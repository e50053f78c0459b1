import Verif.Proofs.Unescape

/-!
# Properties C01–C06: Go strings

`encodeString s dst o` is the model of what encoding the Go string `s` leaves in
the destination buffer `dst` (/repo/encode.go:36).
-/

namespace Jettison.Props
open Jettison.Spec Jettison.Model Jettison.Proofs

/-- **C01.** Without `NoStringEscaping`, the bytes appended are a quote, a legal
JSON string body and a quote. -/
theorem C01_string_token (s dst : Bytes) (o : EscOpts) (h : o.noStringEscaping = false) :
    ∃ body, encodeString s dst o = dst ++ b! "\"" ++ body ++ b! "\"" ∧
      (unescape body).isSome := by
  obtain ⟨out, he, ha⟩ := appendEscapedBytes_spec (dst ++ b! "\"") s o h
  refine ⟨out, ?_, ?_⟩
  · simp only [encodeString, ha]
  · by_cases hc : o.noUTF8Coercion = true
    · rw [esc_raw hc he]; rfl
    · obtain ⟨t, _, hu⟩ := esc_coerced (by simpa using hc) he
      rw [hu]; rfl

/-- **C02.** With coercion on (default), the body decodes to the input with every
invalid byte replaced by U+FFFD. -/
theorem C02_string_decodes (s dst : Bytes) (o : EscOpts) (h : o.noStringEscaping = false)
    (hc : o.noUTF8Coercion = false) :
    ∃ body content, encodeString s dst o = dst ++ b! "\"" ++ body ++ b! "\"" ∧
      unescape body = some content ∧ Coerced s content := by
  obtain ⟨out, he, ha⟩ := appendEscapedBytes_spec (dst ++ b! "\"") s o h
  obtain ⟨t, ht, hu⟩ := esc_coerced hc he
  exact ⟨out, t, by simp only [encodeString, ha], hu, ht⟩

/-- **C02.** In particular valid UTF-8 survives unchanged. -/
theorem C02_string_roundtrip (s dst : Bytes) (o : EscOpts) (h : o.noStringEscaping = false)
    (hc : o.noUTF8Coercion = false) (hv : ValidUtf8 s) :
    ∃ body, encodeString s dst o = dst ++ b! "\"" ++ body ++ b! "\"" ∧
      unescape body = some s := by
  obtain ⟨body, content, h1, h2, h3⟩ := C02_string_decodes s dst o h hc
  rw [coerced_valid h3 hv] at h2
  exact ⟨body, h1, h2⟩

/-- **C03.** With default options the bytes appended contain no raw `<`, `>`, `&`
and no raw U+2028 (E2 80 A8) or U+2029 (E2 80 A9), whatever the input bytes. -/
theorem C03_html_safe (s dst : Bytes) :
    ∃ tok, encodeString s dst {} = dst ++ tok ∧
      c! '<' ∉ tok ∧ c! '>' ∉ tok ∧ c! '&' ∉ tok ∧
      ¬ [0xE2, 0x80, 0xA8] <:+: tok ∧ ¬ [0xE2, 0x80, 0xA9] <:+: tok := by
  obtain ⟨out, he, ha⟩ := appendEscapedBytes_spec (dst ++ b! "\"") s {} rfl
  obtain ⟨cps, h1, h2⟩ := esc_spells (o := {}) rfl he
  have hq : Spells [0x22] (b! "\"") := spells_ascii (b! "\"") (by decide)
  have htok : Spells ([0x22] ++ cps ++ [0x22]) (b! "\"" ++ out ++ b! "\"") :=
    spells_append (spells_append hq h1) hq
  have hbad : ∀ d, Unsafe {} d → d ∉ [0x22] ++ cps ++ [0x22] := by
    intro d hd hm
    simp only [List.mem_append, List.mem_singleton] at hm
    rcases hm with (rfl | hm) | rfl
    · simp [Unsafe] at hd
    · exact h2 d hm hd
    · simp [Unsafe] at hd
  have ascii : ∀ c : UInt8, c.toNat < 0x80 → Unsafe {} c.toNat →
      c ∉ b! "\"" ++ out ++ b! "\"" := by
    intro c hc hu hm
    apply hbad _ hu
    rw [htok.2] at hm
    obtain ⟨d, hd, hcd⟩ := List.mem_flatMap.mp hm
    have hs := htok.1 d hd
    by_cases h80 : d < 0x80
    · rw [utf8Encode_ascii h80] at hcd
      simp at hcd
      rw [hcd, u8_toNat_ofNat _ (by omega)]; exact hd
    · have := utf8Encode_high hs (by omega) c hcd
      rw [UInt8.le_iff_toNat_le] at this
      change 128 ≤ c.toNat at this
      omega
  refine ⟨b! "\"" ++ out ++ b! "\"", ?_, ?_, ?_, ?_, ?_, ?_⟩
  · simp [encodeString, ha]
  · exact ascii _ (by decide) (by simp [Unsafe])
  · exact ascii _ (by decide) (by simp [Unsafe])
  · exact ascii _ (by decide) (by simp [Unsafe])
  · intro hi
    exact hbad 0x2028 (by simp [Unsafe])
      (spells_infix htok 0x2028 (by decide) (by decide) hi)
  · intro hi
    exact hbad 0x2029 (by simp [Unsafe])
      (spells_infix htok 0x2029 (by decide) (by decide) hi)

/-- **C04.** With `NoUTF8Coercion` the content is byte-for-byte the input. -/
theorem C04_no_coercion (s dst : Bytes) (o : EscOpts) (h : o.noStringEscaping = false)
    (hc : o.noUTF8Coercion = true) :
    ∃ body, encodeString s dst o = dst ++ b! "\"" ++ body ++ b! "\"" ∧
      unescape body = some s := by
  obtain ⟨out, he, ha⟩ := appendEscapedBytes_spec (dst ++ b! "\"") s o h
  exact ⟨out, by simp only [encodeString, ha], esc_raw hc he⟩

/-- **C05.** With `NoStringEscaping` the bytes are copied verbatim whatever the
other two options say. -/
theorem C05_verbatim (s dst : Bytes) (noHTML noUTF8 : Bool) :
    encodeString s dst ⟨true, noHTML, noUTF8⟩ = dst ++ b! "\"" ++ s ++ b! "\"" := by
  simp [encodeString, appendEscapedBytes]

/-- **C06.** With coercion on, the bytes appended are valid UTF-8 for any input. -/
theorem C06_output_utf8 (s dst : Bytes) (o : EscOpts) (h : o.noStringEscaping = false)
    (hc : o.noUTF8Coercion = false) :
    ∃ tok, encodeString s dst o = dst ++ tok ∧ ValidUtf8 tok := by
  obtain ⟨out, he, ha⟩ := appendEscapedBytes_spec (dst ++ b! "\"") s o h
  obtain ⟨cps, h1, _⟩ := esc_spells hc he
  have hq : Spells [0x22] (b! "\"") := spells_ascii (b! "\"") (by decide)
  exact ⟨b! "\"" ++ out ++ b! "\"", by simp [encodeString, ha], _,
    (spells_append (spells_append hq h1) hq).1, (spells_append (spells_append hq h1) hq).2⟩

/-- **C06.** Two different valid UTF-8 strings never encode alike. -/
theorem C06_injective (s t dst : Bytes) (o : EscOpts) (h : o.noStringEscaping = false)
    (hs : ValidUtf8 s) (ht : ValidUtf8 t)
    (he : encodeString s dst o = encodeString t dst o) : s = t := by
  have key : ∀ s, ValidUtf8 s → ∃ body, encodeString s dst o = dst ++ b! "\"" ++ body ++ b! "\"" ∧
      unescape body = some s := by
    intro s hv
    by_cases hc : o.noUTF8Coercion = true
    · exact C04_no_coercion s dst o h hc
    · exact C02_string_roundtrip s dst o h (by simpa using hc) hv
  obtain ⟨b1, h1, h2⟩ := key s hs
  obtain ⟨b2, h3, h4⟩ := key t ht
  rw [h1, h3] at he
  have : b1 = b2 := List.append_cancel_left (List.append_cancel_right he)
  subst this
  rw [h2] at h4
  exact Option.some.inj h4

/-! Non-vacuity: a string mixing plain, escaped, multi-byte, separator and
invalid bytes. -/

example : encodeString (b! "a<\"é " ++ [0xFF, 0x41]) (b! "[") {} =
    b! "[\"a\\u003c\\\"é\\u2028\\ufffdA\"" := by decide +kernel
example : ValidUtf8 (b! "é< ") :=
  ⟨[0xE9, 0x3C, 0x2028], by decide, by decide +kernel⟩
example : ¬ ValidUtf8 [0xFF] := by
  rintro ⟨cps, h, he⟩
  cases cps with
  | nil => simp at he
  | cons c cs =>
    have := (C02_string_roundtrip [0xFF] [] {} rfl rfl ⟨c :: cs, h, he⟩)
    obtain ⟨body, h1, h2⟩ := this
    have hb : encodeString [0xFF] [] {} = [] ++ b! "\"" ++ b! "\\ufffd" ++ b! "\"" := by
      decide +kernel
    rw [hb] at h1
    have : b! "\\ufffd" = body := List.append_cancel_left (List.append_cancel_right h1)
    subst this
    exact absurd h2 (by decide +kernel)

end Jettison.Props
