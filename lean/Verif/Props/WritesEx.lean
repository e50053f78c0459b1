import Verif.Props.Writes
import Verif.Props.WritesUnique
import Verif.Props.MapsEx
import Verif.Props.DocumentEx
import Verif.Props.Wrong

/-!
# The bytes that are written: examples
-/

namespace Jettison.Props
open Jettison Jettison.Spec Jettison.Model Jettison.Proofs

theorem shop_writes (cells : List (Addr × Cell)) : WriteReady shopW (shopH cells) (univM shopMeth) :=
  ⟨shop_ready _, toyFmt_contract, shop_honest _, shop_honestM, shop_order, shop_valid⟩

/-- A test for `TimesFine`. -/
def timesB (_ : TId) (v : Val) : Bool :=
  match v with
  | .time x => decide ((-9223372036854775808 ≤ x.unix ∧ x.unix < 9223372036854775808) ∧ x.nsec < 1000000000)
  | _ => true

theorem timesB_fine {W : World} {t : TId} {v : Val} {n : Nat} (h : allParts W.E timesB n t v = true) : TimesFine W t v := by
  intro t' x hw
  have := allParts_within h hw
  simp only [timesB, decide_eq_true_eq] at this
  exact this

/-- The flags that leave everything as it is. -/
def bareOpts : List (Option Opt) := [some (.flag .noHTMLEscaping), some (.flag .noCompact), some (.flag .unixTime)]

theorem bare_text : marshalOpts shopW (shopH bigCells) 9 (some (32, 100)) bareOpts = .ret (some (b!
    "{\"1\":{\"name\":\"t\\\"é\",\"p\":\"12\"},\"2\":[[1, 2]],\"3\":{\"<k>\":4},\"4\":951782400,\"5\":[ 1],\"6\":{\"<k>\":4}}")) none := by
  decide +kernel

/-- The hypotheses of `C56_bytes` and so of `C56_value`, with the default options and with others. -/
example : Writes shopW (univM shopMeth) defaultEncOpts 32 false false bigV (b!
    "{\"1\":{\"name\":\"t\\\"é\",\"p\":\"12\"},\"2\":[[1,2]],\"3\":{\"\\u003ck\\u003e\":4},\"4\":\"2000-02-29T01:00:00.0000005+01:00\",\"5\":[1],\"6\":{\"\\u003ck\\u003e\":4}}") :=
  (C56_bytes (opts := []) (shop_writes _) big_holds (timesB_fine (n := 6) (by decide +kernel)) rfl (n := 9)).1 _ big_text

example : ∃ o, prepare bareOpts = .ok o ∧ Writes shopW (univM shopMeth) o 32 false false bigV (b!
    "{\"1\":{\"name\":\"t\\\"é\",\"p\":\"12\"},\"2\":[[1, 2]],\"3\":{\"<k>\":4},\"4\":951782400,\"5\":[ 1],\"6\":{\"<k>\":4}}") :=
  ⟨_, rfl, (C56_bytes (shop_writes _) big_holds (timesB_fine (n := 6) (by decide +kernel)) rfl (n := 9)).1 _ bare_text⟩

theorem wrong_writes (cells : List (Addr × Cell)) : WriteReady wrongW (wrongH cells) (univM wrongMeth) :=
  ⟨wrong_ready _, toyFmt_contract, wrong_honest _, by
    rintro path m ctx t w (rfl | rfl)
    · exact .inr <| .inr ⟨b! "77", fun dst => rfl⟩
    · exact .inr <| .inr ⟨b! "77", fun dst => rfl⟩, fun _ _ => List.reverse_perm _, validText_iff⟩

/-- The text with the comma of a dropped first member (finding 1) is what `Writes` says. -/
example : Writes wrongW (univM wrongMeth) defaultEncOpts 6 false false (.struct [.str (b! "x"), .int (.int 1)]) (b! "{,\"b\":1}") :=
  (C56_bytes (opts := []) (wrong_writes [(100, .str (b! "x")), (116, .int (.int 1))]) (w := 100) (wrong_holds 5 (by decide +kernel))
    (timesB_fine (n := 6) (by decide +kernel)) rfl (n := 5)).1 _ (by decide +kernel)

/-- A time of year 0 (finding 5) is written as `Writes` says. -/
example : Writes shopW (univM shopMeth) defaultEncOpts 26 false false (.time ⟨-62152831504, 0, 0⟩) (b! "\"0000-06-16T//:.+:0,Z\"") :=
  (C56_bytes (opts := []) (shop_writes [(700, .time ⟨-62152831504, 0, 0⟩)]) (w := 700) (shop_holds 5 (by decide +kernel))
    (timesB_fine (n := 6) (by decide +kernel)) rfl (n := 5)).1 _ (by decide +kernel)

/-- The hypotheses of `C56_exact` and `C56_unique`: maps in a map, and a `sync.Map`. -/
theorem outer_exact (c : Bytes) : Writes shopW (univM shopMeth) defaultEncOpts 32 false false outerV c ↔ c = b! "{\"10\":{\"a\":1,\"b\":2},\"7\":{\"a\":1,\"b\":2}}" :=
  C56_exact (opts := []) (shop_writes mapCells) shop_pathFree outer_holds (timesB_fine (n := 6) (by decide +kernel)) (keysDiffer_plain outer_plain).told rfl rfl
    (n := 9) (by decide +kernel) c

/-- So no other text is allowed, for instance one with the members in the other order. -/
example : ¬ Writes shopW (univM shopMeth) defaultEncOpts 32 false false outerV (b! "{\"7\":{\"a\":1,\"b\":2},\"10\":{\"a\":1,\"b\":2}}") := fun h =>
  absurd ((outer_exact _).mp h) (by decide)

end Jettison.Props
