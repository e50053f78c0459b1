import Verif.Props.Respell
import Verif.Props.SpoilsEx
import Verif.Props.Json

/-! # C78: examples and counterexamples -/

namespace Jettison.Props
open Jettison Jettison.Model Jettison.Spec Jettison.Proofs

/-- The options of the example. -/
def spellOpts : List (Option Opt) := [some (.flag .noHTMLEscaping), some (.flag .noCompact), some (.flag .unsortedMap), some (.flag .noNumberValidation)]

/-- The options are alike but for those about spelling. -/
theorem spell_alike {o : EncOpts} (h : prepare spellOpts = .ok o) : SpellAlike defaultEncOpts o := by
  have : prepare spellOpts = .ok (defaultEncOpts.apply spellOpts) := by rfl
  rw [this] at h
  cases h
  refine ⟨rfl, rfl, rfl, rfl, rfl, fun f hf => ?_⟩
  cases f with
  | noHTMLEscaping => exact absurd (.inl rfl) hf
  | noCompact => exact absurd (.inr (.inl rfl)) hf
  | unsortedMap => exact absurd (.inr (.inr (.inl rfl))) hf
  | noNumberValidation => exact absurd (.inr (.inr (.inr rfl))) hf
  | _ => decide +kernel

/-- The hypotheses of `C78_calls_partial`, and so of `C78_text_partial`, and of `C78_fine`: the value of the example for C30, in
another order, without escapes and with whitespace. -/
example : SameTree (b!
    "{\"1\":{\"name\":\"t\\\"é\",\"p\":\"12\"},\"2\":[[1,2]],\"3\":{\"\\u003ck\\u003e\":4},\"4\":\"2000-02-29T01:00:00.0000005+01:00\",\"5\":[1],\"6\":{\"\\u003ck\\u003e\":4}}")
    (b!
    "{\"6\":{\"<k>\":4},\"5\":[ 1],\"4\":\"2000-02-29T01:00:00.0000005+01:00\",\"3\":{\"<k>\":4},\"2\":[[1, 2]],\"1\":{\"name\":\"t\\\"é\",\"p\":\"12\"}}") := by
  have ht : HasType shopW.E 32 bigV := by
    cases repr_inIface big_holds with
    | val h => exact h
  obtain ⟨hu, hS⟩ := C78_fine (ca := isPtrK (shopW.E 32).kind) (shop_ready bigCells).types ht (by decide +kernel) big_fine
  exact (C78_calls_partial (opts := []) (opts' := spellOpts) (shop_writes bigCells) shop_names (fun _ _ _ _ _ _ _ => rfl) big_holds
    (timesB_fine (n := 6) (by decide +kernel)) rfl rfl (spell_alike rfl) hu hS (n := 9) (n' := 9)).1 _ _ big_text (by decide +kernel)

/-! ## Why the values are restricted -/

def spellDefs : List TypeDef :=
  [ -- 0: int
    { kind := .int .int, name := b! "int", size := 8 },
    -- 2: type Nul string, with MarshalJSON
    { kind := .string, name := b! "Nul", meths := { json := true }, pmeths := { json := true }, size := 16 },
    -- 4: struct { B int "b"; A Nul "a,omitnil" }
    { kind := .struct [fld (b! "B") 0 0 (b! "b"), fld (b! "A") 2 8 (b! "a,omitnil")], size := 24 },
    -- 6: uint8
    { kind := .int .uint8, name := b! "uint8", size := 1 },
    -- 8: json.RawMessage
    { kind := .slice 6, name := b! "RawMessage", special := some .rawMessage, size := 24 } ]

/-- `MarshalJSON` returns `null` and a newline. -/
def spellMeth : MethKind → Option Ctx → TId → Option Bytes → Bytes → MethRes
  | .json, _, _, _, _ => .ok (b! "null\n")
  | _, _, _, _, dst => .ok (dst ++ b! "1")

theorem spell_ok : univOk spellDefs = true := by decide +kernel

def spellH : Heap := univHeap spellDefs spellMeth
  [(100, .int (.int 1)), (108, .str (b! "x")), (200, .slice 300 3), (300, .int (.uint8 (c! '1'))), (301, .int (.uint8 (c! ' '))), (302, .int (.uint8 (c! '2')))]

def spellW : World := univW spellDefs

theorem spell_ready : Ready spellW spellH (univM spellMeth) := univ_ready spell_ok spellMeth _

/-- Finding 1: whether a field with `omitnil` is dropped depends on `NoCompact`, if its `MarshalJSON` method writes
`null` with whitespace. Both texts are JSON, and they hold different data. -/
theorem C78_dropped_wrong : ∃ v, ReprE spellW.E spellH.mem (some (4, 100)) (.iface 4 v) ∧
    marshal spellW spellH 7 (some (4, 100)) = .ret (some (b! "{\"b\":1}")) none ∧
    marshalOpts spellW spellH 7 (some (4, 100)) [some (.flag .noCompact)] = .ret (some (b! "{\"b\":1,\"a\":null\n}")) none ∧
    ¬ SameTree (b! "{\"b\":1}") (b! "{\"b\":1,\"a\":null\n}") := by
  refine ⟨.struct [.int (.int 1), .str (b! "x")], univ_repr 6 (by decide +kernel), by decide +kernel, by decide +kernel, ?_⟩
  have hn : Gr Ws (.val (.num (b! "1"))) (b! "1") := .num _ ((C07_valid_iff_grammar _).mp (by decide +kernel))
  have h1 : JsonText (.obj [(b! "b", .num (b! "1"))]) (b! "{\"b\":1}") :=
    tree_val (Gr.obj (W := Ws) _ _ (Gr.member [] (b! "b") [] [] (b! "1") [] _ _ ws_nil (by decide +kernel) ws_nil ws_nil hn ws_nil))
  have h2 : JsonText (.obj [(b! "b", .num (b! "1")), (b! "a", .null)]) (b! "{\"b\":1,\"a\":null\n}") :=
    tree_val (Gr.obj (W := Ws) _ _ (Gr.memberCons [] (b! "b") [] [] (b! "1") [] _ _ _ _ ws_nil (by decide +kernel) ws_nil ws_nil hn ws_nil
      (Gr.member [] (b! "a") [] [] (b! "null") (b! "\n") _ _ ws_nil (by decide +kernel) ws_nil ws_nil .null (by unfold Ws; decide +kernel))))
  rintro ⟨j, j', g1, g2, g3⟩
  cases C48_denotes_one_tree h1 g1
  cases C48_denotes_one_tree h2 g2
  cases g3 with
  | obj p1 p2 _ =>
    have e1 := p1.length_eq
    have e2 := p2.length_eq
    simp only [List.length_map, List.length_cons, List.length_nil] at e1 e2
    omega

/-- Finding 7: a `json.RawMessage` that is not JSON may become JSON when it is compacted. -/
theorem C78_raw_wrong : ∃ v, ReprE spellW.E spellH.mem (some (8, 200)) (.iface 8 v) ∧
    marshal spellW spellH 7 (some (8, 200)) = .ret (some (b! "12")) none ∧
    marshalOpts spellW spellH 7 (some (8, 200)) [some (.flag .noCompact)] = .ret (some (b! "1 2")) none ∧
    (∃ j, JsonText j (b! "12")) ∧ ¬ SameTree (b! "12") (b! "1 2") :=
  ⟨.slice [.int (.uint8 (c! '1')), .int (.uint8 (c! ' ')), .int (.uint8 (c! '2'))], univ_repr 6 (by decide +kernel), by decide +kernel, by decide +kernel,
    (validText_iff _).mp (by decide +kernel), fun ⟨_, _, _, h, _⟩ => not_jsonText (by decide +kernel) _ h⟩

end Jettison.Props
