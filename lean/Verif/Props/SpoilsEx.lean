import Verif.Props.Spoils
import Verif.Props.DocumentEx
import Verif.Props.WritesEx

/-! # C73: examples -/

namespace Jettison.Props
open Jettison Jettison.Model Jettison.Spec Jettison.Proofs

theorem wrong_names : GoNames wrongW.U.isLetter wrongW.U.isDigit wrongW.E := univ_names (by decide +kernel)

/-- The hypotheses of `C73_malformed`: the struct of finding 1, with the text `{,"b":1}`. -/
example : ∃ t' ca' v', Encodes wrongW defaultEncOpts 6 false (.struct [.str (b! "x"), .int (.int 1)]) t' ca' v' ∧
    (Spoils Ws wrongW (univM wrongMeth) defaultEncOpts t' ca' v' ∨ SpoilsMember Ws wrongW (univM wrongMeth) defaultEncOpts t' ca' v') :=
  (C73_malformed (opts := []) (wrong_writes [(100, .str (b! "x")), (116, .int (.int 1))]) wrong_names (t := 6) (w := 100) (wrong_holds 5 (by decide +kernel))
    (timesB_fine (n := 6) (by decide +kernel)) rfl (n := 5)).1 (b! "{,\"b\":1}") (by decide +kernel)
    (fun ⟨_, h⟩ => not_jsonText (by decide +kernel) _ h)

theorem wrong_pathFree : PathFree (univM wrongMeth) := fun _ _ _ _ _ _ _ => rfl

/-- The hypotheses of `C73_spoilt`: a malformed `json.RawMessage`. -/
example : Spoils Ws wrongW (univM wrongMeth) defaultEncOpts 20 false (.slice [.int (.uint8 (c! '{'))]) ∧
    Writes wrongW (univM wrongMeth) defaultEncOpts 20 false false (.slice [.int (.uint8 (c! '{'))]) (b! "{") := by
  have hc : CopiedAs defaultEncOpts (b! "{") (b! "{") := .compact (by decide +kernel) (.out (fun _ => by unfold IsHtml; decide) (by unfold SepFirst; decide) (by decide) (by decide) (by decide) (by decide) (by decide) .nil)
  have hj : ∀ j, ¬ JsonText j (b! "{") := not_jsonText (by decide +kernel)
  exact ⟨.raw rfl (show AsBytes _ (b! "{") from rfl) hc (fun _ => hj) (fun h => (formed_json.mp h).elim hj), .raw rfl (show AsBytes _ (b! "{") from rfl) hc⟩

/-- The hypotheses of `C73_leaf`: a text with a quote in the middle. -/
example : Spoils Ws wrongW (univM wrongMeth) defaultEncOpts 8 false (.str (b! "a\"b")) := by
  have hp : Picks wrongW.E 8 false .text := by decide +kernel
  have hr : Receives wrongW.E wrongW.ptrTo 8 .text (.str (b! "a\"b")) 8 (.str (b! "a\"b")) 8 := .own (by decide +kernel) (by decide +kernel) (fun _ => by simp)
  have hw : Writes wrongW (univM wrongMeth) defaultEncOpts 8 false false (.str (b! "a\"b")) (b! "\"a\"b\"") := .meth rfl hp hr (.text (path := []) (b := b! "a\"b") (by decide +kernel))
  have hl := C73_leaf (ws := Ws) ws_nil (fun _ h => h) wrong_pathFree toyFmt_contract (wrong_ready []).tab wrong_names (wrong_ready []).types
    (.str (by decide +kernel)) ?_ ⟨?_, ?_, by decide +kernel⟩ hw
  · apply Classical.byContradiction
    intro hn
    obtain ⟨j, hj⟩ := formed_json.mp (hl.mpr hn)
    exact not_jsonText (by decide +kernel) j hj
  · intro t' ca' v' h
    cases h with
    | field _ h => obtain ⟨fs, h⟩ := h; cases h
  · rintro ⟨-, k, e, h⟩; cases h
  · rintro ⟨-, fs, h⟩; cases h

/-- The value of the example for C30 is not spoilt, so its text is JSON without whitespace. -/
example : ∃ j, CompactText j (b!
    "{\"1\":{\"name\":\"t\\\"é\",\"p\":\"12\"},\"2\":[[1,2]],\"3\":{\"\\u003ck\\u003e\":4},\"4\":\"2000-02-29T01:00:00.0000005+01:00\",\"5\":[1],\"6\":{\"\\u003ck\\u003e\":4}}") := by
  apply Classical.byContradiction
  intro hn
  have ht : HasType shopW.E 32 bigV := by
    cases repr_inIface big_holds with
    | val h => exact h
  obtain ⟨t', ca', v', h1, h2⟩ := (C73_spaced (opts := []) (shop_writes bigCells) shop_names big_holds (timesB_fine (n := 6) (by decide +kernel)) rfl (n := 9)).1 _ big_text hn
  exact C73_fine (ws := NoWs) rfl (by decide +kernel) (big_fine _ _ (encodes_within (shop_ready bigCells).types h1 ht)) h2

/-- Why there is no converse for composed values: without escapes, one entry of a map looks like two. The
value is spoilt, and its text is JSON, of another value. -/
theorem C73_hidden : ∃ o, prepare [some (.flag .noStringEscaping)] = .ok o ∧
    SpoilsMember Ws wrongW (univM wrongMeth) o 22 false (.map [(.str (b! "x\":1,\"y"), .int (.int 2))]) ∧
    marshalOpts wrongW (wrongH [(200, .hmap [(300, 400)]), (300, .str (b! "x\":1,\"y")), (400, .int (.int 2))]) 5 (some (22, 200))
      [some (.flag .noStringEscaping)] = .ret (some (b! "{\"x\":1,\"y\":2}")) none ∧
    ∃ j, JsonText j (b! "{\"x\":1,\"y\":2}") :=
  ⟨_, rfl, .keyStr ⟨by decide +kernel, by unfold MethSet.any; decide +kernel, fun _ _ => by unfold MethSet.any; decide +kernel⟩ rfl rfl (by decide +kernel) List.mem_cons_self rfl (by decide +kernel), by decide +kernel,
    (validText_iff _).mp (by decide +kernel)⟩

end Jettison.Props
