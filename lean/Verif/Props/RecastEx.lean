import Verif.Props.Recast
import Verif.Props.Wrong

/-! # C80: examples -/

namespace Jettison.Props
open Jettison Jettison.Model Jettison.Spec Jettison.Proofs

def formOpts : List (Option Opt) :=
  [some (.flag .unixTime), some (.flag .nilMapEmpty), some (.flag .nilSliceEmpty), some (.flag .rawByteSlice), some (.flag .byteArrayAsString), some (.flag .noHTMLEscaping),
    some (.durationFormat 0)]

def formEnc : EncOpts := defaultEncOpts.apply formOpts

theorem form_alike : FormAlike defaultEncOpts formEnc := ⟨rfl, rfl, rfl, by decide +kernel, by decide +kernel⟩

/-- No keys of natively handled types. -/
def nonNativeB (E : Env) (t : TId) (v : Val) : Bool :=
  (match (E t).kind with | .map k _ => (E k).special.isNone | _ => true) &&
  match v with
  | .smap kvs => kvs.all fun kv => match kv.1 with | .iface d _ => (E d).special.isNone | _ => true
  | _ => true

theorem nonNative_keys {W : World} {t : TId} {v : Val} {n : Nat} (h : allParts W.E (nonNativeB W.E) n t v = true) : NoNativeKeys W t v := by
  constructor
  · intro t' k e kvs hw hk
    have := allParts_within h hw
    simp only [nonNativeB, hk, Bool.and_eq_true, Option.isNone_iff_eq_none] at this
    exact this.1
  · intro t' kvs kv d x hw hkv e
    have := allParts_within h hw
    simp only [nonNativeB, Bool.and_eq_true, List.all_eq_true] at this
    have := this.2 kv hkv
    rw [e] at this
    simpa using this

/-- The hypotheses of `C80_calls_partial`, and so of `C80_text_partial`, and of `C80_fine`: a time as a string and as a number, and the rest the same. -/
example : RecastTree shopW defaultEncOpts formEnc (b!
    "{\"1\":{\"name\":\"t\\\"é\",\"p\":\"12\"},\"2\":[[1,2]],\"3\":{\"\\u003ck\\u003e\":4},\"4\":\"2000-02-29T01:00:00.0000005+01:00\",\"5\":[1],\"6\":{\"\\u003ck\\u003e\":4}}")
    (b!
    "{\"1\":{\"name\":\"t\\\"é\",\"p\":\"12\"},\"2\":[[1,2]],\"3\":{\"<k>\":4},\"4\":951782400,\"5\":[1],\"6\":{\"<k>\":4}}") := by
  have ht : HasType shopW.E 32 bigV := by
    cases repr_inIface big_holds with
    | val h => exact h
  have hK : NoNativeKeys shopW 32 bigV := nonNative_keys (n := 6) (by decide +kernel)
  obtain ⟨hu, hS⟩ := C78_fine (ca := isPtrK (shopW.E 32).kind) (shop_ready bigCells).types ht (by decide +kernel) big_fine
  have hu' : Unspoilt Ws shopW (univM shopMeth) formEnc 32 (isPtrK (shopW.E 32).kind) bigV :=
    C80_fine (shop_ready bigCells).types ht big_fine hK (by decide +kernel) (fun h => absurd h (by decide +kernel)) (fun h => absurd h (by decide +kernel))
      fun _ _ h => absurd h (by decide +kernel)
  exact (C80_calls_partial (opts := []) (opts' := formOpts) (shop_writes bigCells) shop_names (fun _ _ _ _ _ _ _ => rfl) big_holds
    (timesB_fine (n := 6) (by decide +kernel)) rfl rfl form_alike hu hu' hS (.inr hK) (n := 9) (n' := 9)).1 _ _ big_text (by decide +kernel)

/-- The hypotheses of `C80_same`. -/
example {j j' : Json} (h : Recast shopW defaultEncOpts (defaultEncOpts.apply spellOpts) j j') : SameData j j' :=
  C80_same (o := defaultEncOpts) (o' := defaultEncOpts.apply spellOpts) (by decide +kernel) (by decide +kernel) (by decide +kernel) (by decide +kernel) ⟨by decide +kernel, rfl, rfl⟩ h

/-- The settings with the layout RFC 3339. -/
def layoutEnc : EncOpts := { defaultEncOpts with timeLayout := layoutRFC3339 }

/-- C80: natively handled keys are left out for a reason: the layout of times is also that of keys, so the members are named differently. -/
theorem C80_keys_wrong : ∃ H v, Ready wrongW H (univM wrongMeth) ∧ ReprE wrongW.E H.mem (some (30, 100)) (.iface 30 v) ∧
    marshalOpts wrongW H 5 (some (30, 100)) [] = .ret (some (b! "{\"1970-01-01T00:00:00.5Z\":1}")) none ∧
    prepare [some (.timeLayout layoutRFC3339)] = .ok layoutEnc ∧
    marshalOpts wrongW H 5 (some (30, 100)) [some (.timeLayout layoutRFC3339)] = .ret (some (b! "{\"1970-01-01T00:00:00Z\":1}")) none ∧
    ¬ RecastTree wrongW defaultEncOpts layoutEnc (b! "{\"1970-01-01T00:00:00.5Z\":1}") (b! "{\"1970-01-01T00:00:00Z\":1}") := by
  refine ⟨wrongH [(100, .hmap [(110, 120)]), (110, .time ⟨0, 500000000, 0⟩), (120, .int (.int 1))], .map [(.time ⟨0, 500000000, 0⟩, .int (.int 1))],
    wrong_ready _, wrong_holds 5 (by decide +kernel), by decide +kernel, rfl, by decide +kernel, ?_⟩
  have hn : Gr Ws (.val (.num (b! "1"))) (b! "1") := .num _ ((C07_valid_iff_grammar _).mp (by decide +kernel))
  have h1 : JsonText (.obj [(b! "1970-01-01T00:00:00.5Z", .num (b! "1"))]) (b! "{\"1970-01-01T00:00:00.5Z\":1}") :=
    tree_val (Gr.obj (W := Ws) _ _ (Gr.member [] (b! "1970-01-01T00:00:00.5Z") [] [] (b! "1") [] _ _ ws_nil (by decide +kernel) ws_nil ws_nil hn ws_nil))
  have h2 : JsonText (.obj [(b! "1970-01-01T00:00:00Z", .num (b! "1"))]) (b! "{\"1970-01-01T00:00:00Z\":1}") :=
    tree_val (Gr.obj (W := Ws) _ _ (Gr.member [] (b! "1970-01-01T00:00:00Z") [] [] (b! "1") [] _ _ ws_nil (by decide +kernel) ws_nil ws_nil hn ws_nil))
  rintro ⟨j, j', g1, g2, g3⟩
  cases C48_denotes_one_tree h1 g1
  cases C48_denotes_one_tree h2 g2
  cases g3 with
  | obj p1 p2 _ =>
    have q1 := (p1.map (·.1)).mem_iff (a := b! "1970-01-01T00:00:00.5Z")
    have q2 := (p2.map (·.1)).mem_iff (a := b! "1970-01-01T00:00:00.5Z")
    simp only [List.map_map, Function.comp_def] at q1 q2
    have := q2.mpr (q1.mp (by simp))
    revert this
    decide
  | time _ _ _ h | duration _ _ _ h => rcases h with ⟨_, h⟩ | ⟨_, h⟩ <;> cases h

end Jettison.Props
