import Verif.Proofs.CompactGr

/-!
# C14, C15, C47: compaction of JSON produced by custom methods
-/

namespace Jettison.Props
open Jettison.Spec Jettison.Model Jettison.Proofs

/-- C14: compacting a well-formed JSON text, in any whitespace layout, appends to the
destination a JSON text without insignificant whitespace that denotes the same tree. -/
theorem C14_compact_value (dst src : Bytes) (escHTML : Bool) (j : Json) (h : JsonText j src) :
    ∃ out, appendCompactJSON dst src escHTML = dst ++ out ∧ CompactText j out := by
  obtain ⟨out, h1, h2, -⟩ := ws_of_text (esc := escHTML) h
  exact ⟨out, by rw [appendCompactJSON_eq, h1], h2⟩

/-- Non-vacuity: a text with whitespace, nesting, escapes and an HTML character. -/
example : JsonText (.obj [(b! "a", .arr [.num (b! "-1.5e3"), .str (b! "<\n")]), (b! "", .null)])
    (b! " { \"\\u0061\" : [ -1.5e3 , \"<\\n\" ]\n, \"\":null}\t") := by
  have sp : Ws (b! " ") := by decide
  have nl : Ws (b! "\n") := by decide
  have e0 : Ws [] := by decide
  refine ⟨b! " ", b! "{ \"\\u0061\" : [ -1.5e3 , \"<\\n\" ]\n, \"\":null}", b! "\t", sp, by decide, ?_, rfl⟩
  have hn : IsNumber (b! "-1.5e3") :=
    ⟨b! "-", b! "1", b! ".5", b! "e3", rfl, Or.inr rfl, Or.inr ⟨49, [], rfl, by decide, by simp⟩,
      Or.inr ⟨b! "5", rfl, by simp, by decide⟩,
      Or.inr ⟨101, [], b! "3", rfl, Or.inl rfl, Or.inl rfl, by simp, by decide⟩⟩
  have g1 := Gr.elemCons (W := Ws) (b! " ") _ (b! " ") _ _ _ sp (Gr.num _ hn) sp
    (Gr.elem (b! " ") _ (b! " ") _ sp (Gr.str (b! "<\\n") (b! "<\n") (by decide +kernel)) sp)
  exact Gr.obj _ _ (Gr.memberCons (b! " ") (b! "\\u0061") (b! " ") (b! " ") _ (b! "\n") _ (b! "a") _ _ sp
    (by decide +kernel) sp sp (Gr.arr _ _ g1) nl
    (Gr.member (b! " ") [] [] [] _ [] [] _ sp rfl e0 e0 Gr.null e0))

/-- C15: compacting twice is compacting once. -/
theorem C15_idempotent (src : Bytes) (escHTML : Bool) (j : Json) (h : JsonText j src) :
    appendCompactJSON [] (appendCompactJSON [] src escHTML) escHTML = appendCompactJSON [] src escHTML := by
  obtain ⟨out, h1, -, h2⟩ := ws_of_text (esc := escHTML) h
  simp only [appendCompactJSON_eq, List.nil_append, h1, h2]

/-- For malformed input (only reachable through a `json.RawMessage`, which is not
validated) compaction is not idempotent, with either setting. -/
theorem C15_malformed_not_idempotent :
    (let src : Bytes := b! "\"\\<\" "
     appendCompactJSON [] (appendCompactJSON [] src true) true ≠ appendCompactJSON [] src true) ∧
    (let src : Bytes := [0xE2, 0x20, 0x80, 0xA8]
     appendCompactJSON [] (appendCompactJSON [] src false) false ≠ appendCompactJSON [] src false) := by
  decide +kernel

/-- C47: with HTML escaping on, whatever the custom method or raw message contains,
the bytes appended by compaction have no raw `<`, `>` or `&`. -/
theorem C47_compact_html_safe (dst src : Bytes) :
    ∃ out, appendCompactJSON dst src true = dst ++ out ∧
      ∀ c ∈ out, c ≠ c! '<' ∧ c ≠ c! '>' ∧ c ≠ c! '&' :=
  ⟨_, appendCompactJSON_eq dst src true, compactL_html _ _ _ _⟩

example : appendCompactJSON [] (b! "[\"<b>\", <&]") true = b! "[\"\\u003cb\\u003e\",\\u003c\\u0026]" := by
  decide +kernel

end Jettison.Props
