import Verif.Props.Milder
import Verif.Props.Wrong

/-! # C79: examples -/

namespace Jettison.Props
open Jettison Jettison.Model Jettison.Spec Jettison.Proofs

def mildOpts : List (Option Opt) :=
  [some (.flag .noCompact), none, some (.timeLayout (b! "2006")), some (.flag .byteArrayAsString), some (.durationFormat 3), some (.flag .nilMapEmpty), some (.flag .noUTF8Coercion)]

theorem mild_opts : ∀ x ∈ mildOpts, Mild x := by
  intro x hx
  simp only [mildOpts, List.mem_cons, List.not_mem_nil, or_false] at hx
  rcases hx with rfl | rfl | rfl | rfl | rfl | rfl | rfl
  · exact .flag (by decide)
  · exact .none
  · exact .layout (by decide)
  · exact .flag (by decide)
  · exact .duration (by decide)
  · exact .flag (by decide)
  · exact .flag (by decide)

/-- The hypotheses of `C79_adding`, and with them those of `C79_options` and `C79_success`. -/
example : ∃ b', marshalOpts (ringB.world shopW) ringB.heap 200 (some (129, 500)) ([some (.allowList [b! "Next"])] ++ mildOpts) = .ret (some b') none :=
  C79_adding (n0 := 200) (b := b! "{\"Next\":{\"Next\":null}}") ringB_finite (shop_faults ringCells) shop_pathFree (w := 500) rfl ringV_holds (by decide +kernel) mild_opts

/-- The hypotheses of `C79_append`. -/
example : ∃ b', appendOpts (ringB.world shopW) ringB.heap 200 (b! "y") (some (129, 500)) ([] ++ mildOpts) = .ret (some (b! "y" ++ b')) none := by
  obtain ⟨o', h1, h2⟩ := C79_options (opts := []) (o := defaultEncOpts) rfl mild_opts
  exact C79_append (opts := []) (n0 := 200) (dst := b! "x") (r := some (b! "x{\"N\":1,\"Next\":{\"N\":2,\"Next\":null}}")) ringB_finite (shop_faults ringCells) shop_pathFree
    (w := 500) rfl ringV_holds rfl h1 h2 (by decide +kernel) _

/-- The hypotheses of `C79_error`. -/
example : ∃ t' ca' v', Encodes shopW defaultEncOpts 32 false blameV t' ca' v' ∧
    Fault shopW (univM shopMeth) defaultEncOpts t' ca' v' (.marshaler 22 .json (.user 3)) := by
  obtain ⟨o', h1, h2⟩ := C79_options (opts := []) (o := defaultEncOpts) rfl mild_opts
  exact C79_error (opts' := [] ++ mildOpts) (shop_faults blameCells) (w := 100) (shop_holds 8 (by decide +kernel)) h1 h2 (n := 9) (r := none) (by decide +kernel)

/-- C79: `UnixTime` is not among those options. Adding it to a call that succeeds can make it panic (finding 9). -/
theorem C79_unix_wrong : ∃ H v out, Ready wrongW H (univM wrongMeth) ∧ ReprE wrongW.E H.mem (some (30, 100)) (.iface 30 v) ∧
    marshalOpts wrongW H 5 (some (30, 100)) [] = .ret (some out) none ∧ marshalOpts wrongW H 5 (some (30, 100)) ([] ++ [some (.flag .unixTime)]) = .panic :=
  ⟨wrongH [(100, .hmap [(110, 120)]), (110, .time ⟨0, 0, 0⟩), (120, .int (.int 1))], .map [(.time ⟨0, 0, 0⟩, .int (.int 1))],
    b! "{\"1970-01-01T00:00:00Z\":1}", wrong_ready _, wrong_holds 5 (by decide +kernel), by decide +kernel, by decide +kernel⟩

end Jettison.Props
