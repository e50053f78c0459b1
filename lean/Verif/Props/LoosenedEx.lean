import Verif.Props.Loosened
import Verif.Props.ComposeEx
import Verif.Props.CutEx

/-!
# Containers of interfaces: examples
-/

namespace Jettison.Props
open Jettison Jettison.Spec Jettison.Model Jettison.Proofs

/-- The types of the example. -/
def looseDefs : List TypeDef :=
  [ -- 0: int
    { kind := .int .int, name := b! "int", size := 8 },
    -- 2: string
    { kind := .string, name := b! "string", size := 16 },
    -- 4: []*int
    { kind := .slice 1, size := 24 },
    -- 6: interface{}
    { kind := .iface 0, size := 16 },
    -- 8: []interface{}
    { kind := .slice 6, size := 24 },
    -- 10: map[string][]*int
    { kind := .map 2 4, size := 8 },
    -- 12: map[string]interface{}
    { kind := .map 2 6, size := 8 } ]

def looseW : World := univW looseDefs
def looseH (cells : List (Addr × Cell)) : Heap := univHeap looseDefs shopMeth cells

theorem loose_ready (cells : List (Addr × Cell)) : Ready looseW (looseH cells) (univM shopMeth) := univ_ready (by decide +kernel) shopMeth cells

theorem loose_std : StdText looseW.E := by
  intro t s hs
  have h : ∀ t, (looseW.E t).special = none := by
    intro t
    simp only [looseW, univW, univE]
    split
    · rfl
    · rw [List.getD_eq_getElem?_getD]
      cases hg : looseDefs[t / 2]? with
      | none => rfl
      | some d =>
        have : ∀ d ∈ looseDefs, d.special = none := by decide +kernel
        exact this d (List.mem_of_getElem? hg)
  rw [h t] at hs; cases hs

theorem loose_writes (cells : List (Addr × Cell)) : WriteReady looseW (looseH cells) (univM shopMeth) :=
  ⟨loose_ready _, toyFmt_contract, by
    rintro path m ctx t w (rfl | rfl)
    · exact .inr <| .inr ⟨b! "7", fun dst => rfl⟩
    · exact .inr <| .inr ⟨b! "8", fun dst => rfl⟩, shop_honestM, fun _ _ => List.reverse_perm _, validText_iff⟩

theorem loose_faults (cells : List (Addr × Cell)) : FaultReady looseW (looseH cells) (univM shopMeth) :=
  ⟨loose_ready _, toyFmt_contract, shop_honestM, fun _ _ => List.reverse_perm _, validText_iff, loose_std⟩

/-- `map[string][]*int{"k": {&five, nil}, "l": nil}`, and the same as a `map[string]interface{}` with `[]interface{}{5, nil}`. -/
def looseCells : List (Addr × Cell) :=
  [(100, .hmap [(200, 300), (220, 330)]), (150, .hmap [(200, 700), (220, 720)]), (200, .str (b! "k")), (220, .str (b! "l")), (300, .slice 500 2), (330, .slice 0 0),
   (500, .word 520), (508, .word 0), (520, .int (.int 5)), (600, .eface (some (0, 520))), (616, .eface none), (640, .slice 600 2), (670, .slice 0 0),
   (700, .eface (some (8, 640))), (720, .eface (some (8, 670)))]

def looseV : Val := .map [(.str (b! "k"), .slice [.ptr (.int (.int 5)), .nil]), (.str (b! "l"), .nil)]
def looseV' : Val := .map [(.str (b! "k"), .iface 8 (.slice [.iface 0 (.int (.int 5)), .nil])), (.str (b! "l"), .iface 8 .nil)]

theorem loose_any : DynType looseW.E 6 := ⟨⟨0, rfl⟩, byKind_of (by decide +kernel)⟩

theorem loose_slices : LooseSlice looseW.E 4 1 8 :=
  ⟨rfl, byKind_of (by decide +kernel), fun h => (by cases h.1), byKind_of (by decide +kernel), 6, rfl, loose_any⟩

theorem loose_generic : Generic looseW defaultEncOpts 10 looseV (.iface 12 looseV') := by
  have hi : ¬ IsIface looseW.E 0 := fun ⟨k, hk⟩ => by cases hk
  refine .map (e := 4) ⟨byKind_of (by decide +kernel), byKind_of (by decide +kernel), 2, 6, rfl, rfl, loose_any⟩ rfl fun i x y h1 h2 => ?_
  match i, h1, h2 with
  | 0, h1, h2 =>
    cases h1; cases h2
    refine .slice (e := 1) loose_slices (.inl ⟨0, rfl⟩) (fun ⟨k, hk⟩ => by cases hk) rfl fun i x y h1 h2 => ?_
    match i, h1, h2 with
    | 0, h1, h2 =>
      cases h1; cases h2
      refine .ptr (e := 0) rfl (byKind_of (by decide +kernel)) (.inr (.inr fun x hx t' v' hw => ?_)) (fun h => absurd h hi) (.same (.value hi) (fun h => absurd h hi))
      have := allParts_within (E := looseW.E) (P := fun t _ => decide ((looseW.E t).pmeths = (looseW.E t).meths)) (n := 3)
        (by rw [List.mem_singleton.mp hx]; decide +kernel) hw
      simpa using this
    | 1, h1, h2 => cases h1; cases h2; exact .ptrNil (e := 0) rfl (byKind_of (by decide +kernel))
  | 1, h1, h2 => cases h1; cases h2; exact .sliceNil (e := 1) loose_slices

theorem loose_text : marshalOpts looseW (looseH looseCells) 9 (some (10, 100)) [] = .ret (some (b! "{\"k\":[5,null],\"l\":null}")) none := by decide +kernel

theorem loose_maps : (withinList looseW.E 6 12 looseV').filter (fun x => isMapV x.2) = [(12, looseV')] := by rfl

theorem loose_plain : AllPlain looseW.E 12 looseV' := by
  have hs : ∀ s ∈ [b! "k", b! "l"], ValidUtf8 s := by
    intro s hs
    simp only [List.mem_cons, List.not_mem_nil, or_false] at hs
    rcases hs with rfl | rfl <;> exact ⟨_, spells_ascii _ (by decide)⟩
  have hm : ∀ {t' : TId} {v' : Val}, Within looseW.E 12 looseV' t' v' → isMapV v' = true → (t', v') ∈ [(12, looseV')] := by
    intro t' v' h hv
    rw [← loose_maps]
    exact List.mem_filter.mpr ⟨within_mem (n := 6) (by decide +kernel) h, hv⟩
  constructor
  · intro t' k e kvs hw hk
    have hp := hm hw rfl
    simp only [List.mem_cons, Prod.mk.injEq, or_false, List.not_mem_nil, looseV'] at hp
    obtain ⟨rfl, he⟩ := hp
    left
    cases he
    refine ⟨[b! "k", b! "l"], by decide, hs, rfl, fun i kv x h1 h2 => ?_⟩
    obtain rfl : k = 2 := by
      have : (looseW.E 12).kind = .map k e := hk
      cases this; rfl
    match i, h1, h2 with
    | 0, h1, h2 | 1, h1, h2 => cases h1; cases h2; exact ⟨2, ⟨rfl, rfl⟩, rfl⟩
    | _ + 2, h1, _ => cases h1
  · intro t' kvs hw
    have hp := hm hw rfl
    simp [looseV'] at hp

/-- The hypotheses of `C83_calls`, and so of `C83_text` and `C83_held`. -/
example (dst : Bytes) : marshalOpts looseW (looseH looseCells) 9 (some (12, 150)) [] = .ret (some (b! "{\"k\":[5,null],\"l\":null}")) none ∧
    appendOpts looseW (looseH looseCells) 9 dst (some (12, 150)) [] = .ret (some (dst ++ b! "{\"k\":[5,null],\"l\":null}")) none :=
  (C83_calls (opts := []) (n := 9) (n' := 9) (loose_faults looseCells) (loose_writes looseCells) shop_pathFree loose_generic rfl (w := 100) (w' := 150)
    (univ_repr 9 (by decide +kernel)) (univ_repr 9 (by decide +kernel)) (timesB_fine (n := 6) (by decide +kernel)) (timesB_fine (n := 6) (by decide +kernel))
    (by rw [loose_text]; intro h; cases h) (by decide +kernel) dst).2 rfl (keysDiffer_plain loose_plain).told _ loose_text

/-- A type with `MarshalJSON` on pointers, and slices of it and of interfaces. -/
def addrDefs : List TypeDef :=
  [ -- 0: type PLoud string, with MarshalJSON on *PLoud
    { kind := .string, name := b! "PLoud", pmeths := { json := true }, size := 16 },
    -- 2: interface{}
    { kind := .iface 0, size := 16 },
    -- 4: []PLoud
    { kind := .slice 0, size := 24 },
    -- 6: []interface{}
    { kind := .slice 2, size := 24 } ]

def addrCells : List (Addr × Cell) := [(100, .slice 300 1), (150, .slice 400 1), (300, .str (b! "x")), (400, .eface (some (0, 300)))]

/-- C83: `AddrFree` has to be required: the method is called for the element of a slice, and not for the same value in an interface. -/
theorem C83_addr_wrong :
    Boxed (univE addrDefs) 0 (.str (b! "x")) (.iface 0 (.str (b! "x"))) ∧
    marshalOpts (univW addrDefs) (univHeap addrDefs shopMeth addrCells) 9 (some (4, 100)) [] = .ret (some (b! "[[1,2]]")) none ∧
    marshalOpts (univW addrDefs) (univHeap addrDefs shopMeth addrCells) 9 (some (6, 150)) [] = .ret (some (b! "[\"x\"]")) none := by
  exact ⟨.value fun ⟨k, hk⟩ => (by cases hk), by decide +kernel, by decide +kernel⟩

end Jettison.Props
