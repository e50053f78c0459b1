import Verif.Props.Trim
import Verif.Props.MapsEx

/-! # C74: examples -/

namespace Jettison.Props
open Jettison Jettison.Model Jettison.Spec Jettison.Proofs

def isMapV : Val → Bool
  | .map _ | .smap _ => true
  | _ => false

theorem big_maps : (withinList shopW.E 6 32 bigV).filter (fun x => isMapV x.2) =
    [(32, bigV), (48, .map [(.str (b! "<k>"), .int (.int 4))]), (30, .smap [(.iface 2 (.str (b! "<k>")), .iface 0 (.int (.int 4)))])] := by rfl

theorem big_plain : AllPlain shopW.E 32 bigV := by
  have hs : ∀ s ∈ [b! "<k>"], ValidUtf8 s := by
    intro s hs
    obtain rfl := List.mem_singleton.mp hs
    exact ⟨_, spells_ascii (b! "<k>") (by decide)⟩
  have hm : ∀ {t' : TId} {v' : Val}, Within shopW.E 32 bigV t' v' → isMapV v' = true → (t', v') ∈
      [(32, bigV), (48, .map [(.str (b! "<k>"), .int (.int 4))]), (30, .smap [(.iface 2 (.str (b! "<k>")), .iface 0 (.int (.int 4)))])] := by
    intro t' v' h hv
    rw [← big_maps]
    exact List.mem_filter.mpr ⟨within_mem (n := 6) (by decide +kernel) h, hv⟩
  constructor
  · intro t' k e kvs hw hk
    have hp := hm hw rfl
    simp only [List.mem_cons, Prod.mk.injEq, reduceCtorEq, and_false, or_false, List.not_mem_nil, bigV] at hp
    rcases hp with ⟨rfl, he⟩ | ⟨rfl, he⟩
    · right
      cases he
      refine ⟨[.int 1, .int 2, .int 3, .int 4, .int 5, .int 6], by decide, rfl, fun i kv x h1 h2 => ?_⟩
      obtain ⟨rfl, rfl⟩ : k = 0 ∧ e = 10 := by
        have : (Kind.map 0 10) = .map k e := hk
        cases this; exact ⟨rfl, rfl⟩
      match i, h1, h2 with
      | 0, h1, h2 | 1, h1, h2 | 2, h1, h2 | 3, h1, h2 | 4, h1, h2 | 5, h1, h2 =>
        cases h1; cases h2; exact ⟨0, .int, ⟨rfl, rfl⟩, rfl, byKind_of (by decide +kernel)⟩
      | _ + 6, h1, _ => cases h1
    · left
      cases he
      refine ⟨[b! "<k>"], by decide, hs, rfl, fun i kv x h1 h2 => ?_⟩
      obtain rfl : k = 24 := by
        have : (shopW.E 48).kind = .map k e := hk
        cases this; rfl
      match i, h1, h2 with
      | 0, h1, h2 => cases h1; cases h2; exact ⟨24, ⟨rfl, rfl⟩, rfl⟩
      | _ + 1, h1, _ => cases h1
  · intro t' kvs hw
    have hp := hm hw rfl
    simp only [List.mem_cons, Prod.mk.injEq, reduceCtorEq, and_false, false_or, or_false, List.not_mem_nil, bigV] at hp
    obtain ⟨rfl, he⟩ := hp
    cases he
    left
    refine ⟨[b! "<k>"], by decide, hs, rfl, fun i kv x h1 h2 => ?_⟩
    match i, h1, h2 with
    | 0, h1, h2 => cases h1; cases h2; exact ⟨2, rfl, rfl⟩
    | _ + 1, h1, _ => cases h1

def denyOpts : List (Option Opt) := [some (.denyList [b! "p"])]

theorem deny_text : marshalOpts shopW (shopH bigCells) 9 (some (32, 100)) denyOpts = .ret (some (b!
    "{\"1\":{\"name\":\"t\\\"é\"},\"2\":[[1,2]],\"3\":{\"\\u003ck\\u003e\":4},\"4\":\"2000-02-29T01:00:00.0000005+01:00\",\"5\":[1],\"6\":{\"\\u003ck\\u003e\":4}}")) none := by
  decide +kernel

/-- The hypotheses of `C74_calls` and `C74_text`: a member in a map is denied. -/
example : ∃ o, prepare denyOpts = .ok o ∧ Trimmed o
    (b! "{\"1\":{\"name\":\"t\\\"é\",\"p\":\"12\"},\"2\":[[1,2]],\"3\":{\"\\u003ck\\u003e\":4},\"4\":\"2000-02-29T01:00:00.0000005+01:00\",\"5\":[1],\"6\":{\"\\u003ck\\u003e\":4}}")
    (b! "{\"1\":{\"name\":\"t\\\"é\"},\"2\":[[1,2]],\"3\":{\"\\u003ck\\u003e\":4},\"4\":\"2000-02-29T01:00:00.0000005+01:00\",\"5\":[1],\"6\":{\"\\u003ck\\u003e\":4}}") :=
  ⟨_, rfl, (C74_calls (opts := denyOpts) (n := 9) (n0 := 9) (shop_writes bigCells) shop_std shop_pathFree big_holds
    (timesB_fine (n := 6) (by decide +kernel)) (keysDiffer_plain big_plain) rfl rfl).1 _ _ big_text deny_text⟩

/-- The hypotheses of `C74_success`. -/
example : ∃ b', marshalOpts (ringB.world shopW) ringB.heap 200 (some (129, 500)) [some (.allowList [b! "Next"])] = .ret (some b') none :=
  C74_success (opts := [some (.allowList [b! "Next"])]) (n0 := 200) (r := some (b! "{\"N\":1,\"Next\":{\"N\":2,\"Next\":null}}"))
    ringB_finite (shop_faults ringCells) shop_pathFree (w := 500) rfl ringV_holds rfl (by decide +kernel)

/-- The hypotheses of `C74_error`. -/
example : ∃ t' ca' v', Encodes shopW defaultEncOpts 32 false blameV t' ca' v' ∧
    Fault shopW (univM shopMeth) defaultEncOpts t' ca' v' (.marshaler 22 .json (.user 3)) :=
  C74_error (opts := denyOpts) (shop_faults blameCells) (w := 100) (shop_holds 8 (by decide +kernel)) rfl (n := 9) (r := none) (by decide +kernel)

end Jettison.Props
