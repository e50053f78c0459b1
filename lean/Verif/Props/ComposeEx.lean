import Verif.Props.Compose
import Verif.Props.TrimEx
import Verif.Props.StdEx

/-! # C76: examples -/

namespace Jettison.Props
open Jettison Jettison.Model Jettison.Spec Jettison.Proofs

/-- A `map[string]interface{}` with an `Item`, a `[]Loud` and nil. -/
def boxCells : List (Addr × Cell) :=
  [(100, .hmap [(110, 120), (140, 150), (160, 170)]), (110, .str (b! "b")), (140, .str (b! "a")), (160, .str (b! "c")),
   (120, .eface (some (4, 400))), (150, .eface (some (46, 500))), (170, .eface none),
   (400, .str (b! "tea")), (416, .int (.int 0)), (424, .word 0), (432, .str (b! "x")), (448, .int (.int 12)),
   (500, .slice 520 1), (520, .str (b! "loud"))]

def boxV : Val :=
  .map [(.str (b! "b"), .iface 4 itemV), (.str (b! "a"), .iface 46 (.slice [.str (b! "loud")])), (.str (b! "c"), .nil)]

theorem box_holds : ReprE shopW.E (shopH boxCells).mem (some (60, 100)) (.iface 60 boxV) := shop_holds 8 (by decide +kernel)

theorem box_maps : (withinList shopW.E 6 60 boxV).filter (fun x => isMapV x.2) = [(60, boxV)] := by rfl

theorem box_plain : AllPlain shopW.E 60 boxV := by
  have hs : ∀ s ∈ [b! "b", b! "a", b! "c"], ValidUtf8 s := by
    intro s hs
    simp only [List.mem_cons, List.not_mem_nil, or_false] at hs
    rcases hs with rfl | rfl | rfl <;> exact ⟨_, spells_ascii _ (by decide)⟩
  have hm : ∀ {t' : TId} {v' : Val}, Within shopW.E 60 boxV t' v' → isMapV v' = true → (t', v') ∈ [(60, boxV)] := by
    intro t' v' h hv
    rw [← box_maps]
    exact List.mem_filter.mpr ⟨within_mem (n := 6) (by decide +kernel) h, hv⟩
  constructor
  · intro t' k e kvs hw hk
    have hp := hm hw rfl
    simp only [List.mem_cons, Prod.mk.injEq, or_false, List.not_mem_nil, boxV] at hp
    obtain ⟨rfl, he⟩ := hp
    left
    cases he
    refine ⟨[b! "b", b! "a", b! "c"], by decide, hs, rfl, fun i kv x h1 h2 => ?_⟩
    obtain rfl : k = 2 := by
      have : (shopW.E 60).kind = .map k e := hk
      cases this; rfl
    match i, h1, h2 with
    | 0, h1, h2 | 1, h1, h2 | 2, h1, h2 => cases h1; cases h2; exact ⟨2, ⟨rfl, rfl⟩, rfl⟩
    | _ + 3, h1, _ => cases h1
  · intro t' kvs hw
    have hp := hm hw rfl
    simp [boxV] at hp

theorem box_dynamic : Dynamic shopW 60 boxV :=
  ⟨by simp [boxV], byKind_of (by decide +kernel), .inr (.inr (.inl ⟨2, 10, rfl, rfl, ⟨0, rfl⟩, byKind_of (by decide +kernel)⟩))⟩

/-- The hypotheses of `C76_parts`. -/
example : PutTogether shopW defaultEncOpts (CallsGive shopW (univM shopMeth) []) 60 boxV
    (b! "{\"a\":[[1,2]],\"b\":{\"name\":\"tea\",\"p\":\"12\"},\"c\":null}") :=
  C76_parts (opts := []) (shop_writes boxCells) shop_pathFree box_holds (timesB_fine (n := 6) (by decide +kernel)) rfl rfl (keysDiffer_plain box_plain).told
    box_dynamic (n := 9) (by decide +kernel)

/-- The hypotheses of `C76_whole`: the parts were encoded elsewhere. -/
example : marshalOpts shopW (shopH boxCells) 9 (some (60, 100)) [] =
    .ret (some (b! "{\"a\":[[1,2]],\"b\":{\"name\":\"tea\",\"p\":\"12\"},\"c\":null}")) none := by
  refine C76_whole (opts := []) (o := defaultEncOpts) (shop_faults boxCells) (shop_writes boxCells) shop_pathFree box_holds (timesB_fine (n := 6) (by decide +kernel)) rfl rfl
    (keysDiffer_plain box_plain).told box_dynamic
    (.map (k := 2) (e := 10) (ms := [(b! "\"b\"", b! "{\"name\":\"tea\",\"p\":\"12\"}"), (b! "\"a\"", b! "[[1,2]]"), (b! "\"c\"", b! "null")])
      (ms' := [(b! "\"a\"", b! "[[1,2]]"), (b! "\"b\"", b! "{\"name\":\"tea\",\"p\":\"12\"}"), (b! "\"c\"", b! "null")])
      rfl rfl ⟨⟨0, rfl⟩, byKind_of (by decide +kernel)⟩ rfl (fun i kv m h1 h2 => ?_) (fun i kv m h1 h2 => ?_) ⟨.swap .., fun _ => ⟨?_, by decide⟩⟩) (by decide +kernel)
  · match i, h1, h2 with
    | 0, h1, h2 | 1, h1, h2 | 2, h1, h2 =>
      cases h1; cases h2
      exact ⟨_, _, rfl, .escaped (by decide) (clearB_spelling (by decide +kernel)), rfl⟩
    | _ + 3, h1, _ => cases h1
  · match i, h1, h2 with
    | 0, h1, h2 =>
      cases h1; cases h2
      exact .value ⟨shopH (shopCells), 400, 9, shop_faults _, shop_writes _, shop_holds 8 (by decide +kernel), by decide +kernel⟩
    | 1, h1, h2 =>
      cases h1; cases h2
      exact .value ⟨shopH [(7, .slice 70 1), (70, .str (b! "loud"))], 7, 9, shop_faults _, shop_writes _, shop_holds 8 (by decide +kernel), by decide +kernel⟩
    | 2, h1, h2 => cases h1; cases h2; exact .nil
    | _ + 3, h1, _ => cases h1
  · simp [List.pairwise_cons]
    exact ⟨⟨.inl (by decide), .inl (by decide)⟩, .inl (by decide)⟩

end Jettison.Props
