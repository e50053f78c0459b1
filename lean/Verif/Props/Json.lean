import Verif.Proofs.Parser

/-! # A JSON text denotes one tree (C48) -/

namespace Jettison.Props
open Jettison.Spec Jettison.Proofs

/-- C48: a byte string is a JSON text for at most one tree. -/
theorem C48_denotes_one_tree {j j' : Json} {b : Bytes} (h : JsonText j b) (h' : JsonText j' b) : j = j' :=
  jsonText_unique h h'

/-- A text without insignificant whitespace is in particular a JSON text. -/
theorem C48_compact_is_text {j : Json} {b : Bytes} (h : CompactText j b) : JsonText j b :=
  compact_isText h

/-- Whitespace, nesting, escapes and duplicate members. -/
example : JsonText (.obj [(b! "a", .arr [.num (b! "1"), .null]), (b! "a", .str (b! "b"))])
    (b! " {\"a\" : [1, null],\"\\u0061\":\"b\"}") := by
  refine ⟨b! " ", b! "{\"a\" : [1, null],\"\\u0061\":\"b\"}", [], by decide, by decide, ?_, by decide⟩
  refine .obj _ (b! "\"a\" : [1, null],\"\\u0061\":\"b\"") ?_
  refine .memberCons [] (b! "a") (b! " ") (b! " ") (b! "[1, null]") [] (b! "\"\\u0061\":\"b\"") (b! "a") _ _
    (by decide) (by decide) (by decide) (by decide) ?_ (by decide) ?_
  · refine .arr _ (b! "1, null") ?_
    refine .elemCons [] (b! "1") [] (b! " null") _ _ (by decide) (.num _ ?_) (by decide)
      (.elem (b! " ") (b! "null") [] _ (by decide) .null (by decide))
    exact ⟨[], b! "1", [], [], by decide, Or.inl rfl, Or.inr ⟨_, _, rfl, by decide, by decide⟩, Or.inl rfl, Or.inl rfl⟩
  · exact .member [] (b! "\\u0061") [] [] (b! "\"b\"") [] (b! "a") _
      (by decide) (by decide) (by decide) (by decide) (.str (b! "b") _ (by decide)) (by decide)

end Jettison.Props
