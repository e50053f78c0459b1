import Verif.Props.DataBack
import Verif.Props.MappedEx

/-!
# Generic data: an example
-/

namespace Jettison.Props
open Jettison Jettison.Spec Jettison.Model Jettison.Proofs

theorem ascii_content : ∀ s : Bytes, (∀ c ∈ s, c.toNat < 0x80) → Coerced s s
  | [], _ => .nil
  | c :: s, h => asciiCoerced c s s (h c List.mem_cons_self) (ascii_content s fun d hd => h d (List.mem_cons_of_mem _ hd))

theorem base_flagFree {m : MField} (hm : m ∈ baseList) : ¬ IsIface shopW.E m.decl.typ ∧ FlagFree shopW.E m.decl.typ := by
  simp only [baseList, List.mem_cons, List.not_mem_nil, or_false] at hm
  rcases hm with rfl | rfl | rfl
  · exact ⟨fun ⟨k, hk⟩ => (by cases hk), .inr ⟨byKind_of (by decide +kernel), .inl rfl⟩⟩
  · exact ⟨fun ⟨k, hk⟩ => (by cases hk), .inl (by decide +kernel)⟩
  · exact ⟨fun ⟨k, hk⟩ => (by cases hk), .inr ⟨byKind_of (by decide +kernel), .inl rfl⟩⟩

/-- `map[int]interface{}{1: &Base{9, time.Second, "base"}}`, and the same with a map for the `Base`. -/
def dataV : Val := .map [(.int (.int 1), .iface 81 (.ptr baseV))]
def dataY : Val := .map [(.int (.int 1), .iface 60 (.map baseKvs))]

def dataCells : List (Addr × Cell) :=
  [(100, .hmap [(200, 300)]), (200, .int (.int 1)), (300, .eface (some (81, 400))), (400, .int (.int 9)), (408, .int (.int64 1000000000)), (416, .str (b! "base"))]

theorem data_base : Untyped shopW defaultEncOpts 40 true baseV (.iface 60 (.map baseKvs)) := by
  obtain ⟨l, shown, b1, b2, b3, b4, b5⟩ := base_map
  have hl : ∀ m ∈ shown, m ∈ baseList := fun m hm => (base_list.2 m).mpr ((b1.2 m).mp ((b3 m).mp hm).1)
  refine .struct (shown := shown) base_like.1 (byKind_of (by decide +kernel)) shop_anyMap ⟨b2, l, b1, b3⟩ (fun m hm => ⟨?_, ?_, ?_⟩) b4
    (fun i m kv h1 h2 => (b5 i m kv h1 h2).1) fun i m kv x h1 h2 hx => ?_
  · exact (base_like.2.2 m ((b1.2 m).mp ((b3 m).mp hm).1)).plain
  · refine ⟨fun _ => rfl, fun _ => ascii_content _ ?_⟩
    have := hl m hm
    simp only [baseList, List.mem_cons, List.not_mem_nil, or_false] at this
    rcases this with rfl | rfl | rfl <;> decide
  · obtain ⟨i, hi⟩ := List.getElem?_of_mem hm
    obtain ⟨kv, hkv⟩ := elem_beside b4 hi
    obtain ⟨-, x, hx, -⟩ := b5 i m kv hi hkv
    exact ⟨x, hx⟩
  · obtain ⟨-, x', c2, c3⟩ := b5 i m kv h1 h2
    cases fieldAt_unique hx c2
    obtain ⟨k1, k2⟩ := base_flagFree (hl m (List.mem_of_getElem? h1))
    generalize kv.2 = y at c3
    cases c3 with
    | held h => exact absurd h k1
    | value _ => exact .same k1 (.inr k2)

theorem data_untyped : Untyped shopW defaultEncOpts 32 false dataV (.iface 32 dataY) := by
  have hd : DynType shopW.E 10 := ⟨⟨0, rfl⟩, byKind_of (by decide +kernel)⟩
  refine .map (k := 0) (e := 10) rfl (byKind_of (by decide +kernel)) ⟨byKind_of (by decide +kernel), 10, rfl, hd⟩ rfl fun i x y h1 h2 => ?_
  match i, h1, h2 with
  | 0, h1, h2 =>
    cases h1; cases h2
    exact .held hd (.ptr (e := 40) rfl (byKind_of (by decide +kernel)) data_base)

theorem data_text : marshal shopW (shopH dataCells) 9 (some (32, 100)) = .ret (some (b! "{\"1\":{\"id\":9,\"when\":1000000000,\"Name\":\"base\"}}")) none := by
  decide +kernel

/-- The hypotheses of `C85_calls_partial`, and so of `C85_data`. -/
example : ∃ j, CompactText j (b! "{\"1\":{\"id\":9,\"when\":1000000000,\"Name\":\"base\"}}") ∧ HeldDenotes shopW (univM shopMeth) defaultEncOpts (.iface 32 dataY) j :=
  (C85_calls_partial (opts := []) (H := shopH dataCells)
    ⟨shop_ready _, toyFmt_contract, shop_honest _, shop_honestM, shop_names, shop_order, shop_valid, by decide +kernel⟩
    (w := 100) (shop_holds 8 (by decide +kernel)) (fun _ _ h => fineB_fine (allParts_within (n := 6) (P := fineB) (by decide +kernel) h))
    data_untyped rfl (n := 9)).1 _ data_text

/-- The map with the same in memory. -/
def dataCells' : List (Addr × Cell) :=
  [(100, .hmap [(200, 600)]), (200, .int (.int 1)), (600, .eface (some (60, 700))), (700, .hmap [(300, 400), (320, 420), (340, 440)]),
   (300, .str (b! "when")), (320, .str (b! "Name")), (340, .str (b! "id")), (400, .eface (some (28, 508))), (420, .eface (some (2, 516))), (440, .eface (some (0, 500))),
   (500, .int (.int 9)), (508, .int (.int64 1000000000)), (516, .str (b! "base"))]

theorem dataMap_text : marshal shopW (shopH dataCells') 9 (some (32, 100)) = .ret (some (b! "{\"1\":{\"Name\":\"base\",\"id\":9,\"when\":1000000000}}")) none := by
  decide +kernel

/-- The hypotheses of `C85_back_calls_partial`, and so of `C85_back`. -/
example : ∃ j j', CompactText j (b! "{\"1\":{\"Name\":\"base\",\"id\":9,\"when\":1000000000}}") ∧
    Denotes shopW (univM shopMeth) defaultEncOpts 32 false false dataV j' ∧ SameData j' j :=
  (C85_back_calls_partial (opts := []) (H := shopH dataCells')
    ⟨shop_ready _, toyFmt_contract, shop_honest _, shop_honestM, shop_names, shop_order, shop_valid, by decide +kernel⟩
    (w := 100) (shop_holds 9 (by decide +kernel)) (fun _ _ h => fineB_fine (allParts_within (n := 7) (P := fineB) (by decide +kernel) h))
    data_untyped rfl (n := 9)).1 _ dataMap_text

end Jettison.Props
