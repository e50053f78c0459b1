import Verif.Props.Maps
import Verif.Props.Methods

/-!
# Maps: examples

Concrete maps that meet the hypotheses of the theorems of `Verif.Props.Maps`, and a
`sync.Map` whose text is not JSON.
-/

namespace Jettison.Props
open Jettison Jettison.Spec Jettison.Model Jettison.Proofs

/-- At 100 a `map[int]interface{}` with the keys 7 and 10; under 7 a `map[string]int`, under 10 a `sync.Map`. -/
def mapCells : List (Addr × Cell) :=
  [(100, .hmap [(110, 120), (140, 150)]), (110, .int (.int 7)), (120, .eface (some (58, 200))), (140, .int (.int 10)), (150, .eface (some (30, 300))),
   (200, .hmap [(210, 230), (240, 260)]), (210, .str (b! "b")), (230, .int (.int 2)), (240, .str (b! "a")), (260, .int (.int 1)),
   (300, .smap [(some (2, 210), some (0, 230)), (some (2, 240), some (0, 260))]),
   (400, .hmap [(210, 520), (240, 540)]), (520, .eface (some (0, 230))), (540, .eface (some (0, 260)))]

def innerV : Val := .map [(.str (b! "b"), .int (.int 2)), (.str (b! "a"), .int (.int 1))]

def innerS : Val := .smap [(.iface 2 (.str (b! "b")), .iface 0 (.int (.int 2))), (.iface 2 (.str (b! "a")), .iface 0 (.int (.int 1)))]

def outerV : Val := .map [(.int (.int 7), .iface 58 innerV), (.int (.int 10), .iface 30 innerS)]

/-- Visits maps forwards; the order of `shopW` is the reverse. -/
def forwards : Path → Nat → List Nat := fun _ n => List.range n

theorem forwards_ok : OrderOk forwards := fun _ _ => .refl _

theorem shop_order : OrderOk shopW.order := fun _ _ => List.reverse_perm _

theorem shop_pathFree : PathFree (univM shopMeth) := fun _ _ _ _ _ _ _ => rfl

theorem outer_holds : ReprE shopW.E (shopH mapCells).mem (some (32, 100)) (.iface 32 outerV) := shop_holds 8 (by decide +kernel)

example : marshal shopW (shopH mapCells) 9 (some (32, 100)) = .ret (some (b! "{\"10\":{\"a\":1,\"b\":2},\"7\":{\"a\":1,\"b\":2}}")) none := by decide +kernel

example : marshalOpts shopW (shopH mapCells) 9 (some (32, 100)) [some (.flag .unsortedMap)] =
    .ret (some (b! "{\"10\":{\"a\":1,\"b\":2},\"7\":{\"a\":1,\"b\":2}}")) none := by decide +kernel

theorem utf8_a : ValidUtf8 (b! "a") := ⟨_, spells_ascii (b! "a") (by decide)⟩
theorem utf8_b : ValidUtf8 (b! "b") := ⟨_, spells_ascii (b! "b") (by decide)⟩

/-- A value and all its parts. -/
def withinList (E : Env) : Nat → TId → Val → List (TId × Val)
  | 0, _, _ => []
  | n + 1, t, v => (t, v) :: (partsOf E t v).flatMap fun x => withinList E n x.1 x.2

theorem within_first {E : Env} {t t' : TId} {v v' : Val} (hw : Within E t v t' v') :
    (t' = t ∧ v' = v) ∨ ∃ t1 v1, Part E t v t1 v1 ∧ Within E t1 v1 t' v' := by
  induction hw with
  | refl => exact .inl ⟨rfl, rfl⟩
  | step _ hp ih =>
    rcases ih with ⟨rfl, rfl⟩ | ⟨t1, v1, h1, h2⟩
    · exact .inr ⟨_, _, hp, .refl⟩
    · exact .inr ⟨t1, v1, h1, h2.step hp⟩

theorem within_mem {E : Env} {n : Nat} {t t' : TId} {v v' : Val} (h : allParts E (fun _ _ => true) n t v = true)
    (hw : Within E t v t' v') : (t', v') ∈ withinList E n t v := by
  have : ∀ n t v, allParts E (fun _ _ => true) n t v = true → (∀ t' v', Part E t v t' v' → ∀ t2 v2, Within E t' v' t2 v2 → (t2, v2) ∈ withinList E (n - 1) t' v') →
      ∀ t2 v2, Within E t v t2 v2 → (t2, v2) ∈ withinList E n t v := by
    intro n t v hn ih t2 v2 hw
    cases n with
    | zero => cases hn
    | succ n =>
      simp only [withinList, List.mem_cons, List.mem_flatMap]
      rcases within_first hw with ⟨rfl, rfl⟩ | ⟨t1, v1, hp, hw'⟩
      · exact .inl rfl
      · exact .inr ⟨(t1, v1), part_mem hp, ih _ _ hp _ _ hw'⟩
  induction n generalizing t v t' v' with
  | zero => cases h
  | succ n ih =>
    refine this (n + 1) t v h (fun t1 v1 hp t2 v2 hw' => ?_) _ _ hw
    simp only [allParts, Bool.true_and, List.all_eq_true] at h
    exact ih (h (t1, v1) (part_mem hp)) hw'

theorem outer_within {t' : TId} {v' : Val} (h : Within shopW.E 32 outerV t' v') : (t', v') ∈
    [(32, outerV), (0, .int (.int 7)), (0, .int (.int 10)), (10, .iface 58 innerV), (58, innerV), (2, .str (b! "b")), (2, .str (b! "a")),
      (0, .int (.int 2)), (0, .int (.int 1)), (10, .iface 30 innerS), (30, innerS), (2, .str (b! "b")), (2, .str (b! "a")), (0, .int (.int 2)), (0, .int (.int 1))] :=
  within_mem (n := 5) (by decide +kernel) h

theorem outer_plain : AllPlain shopW.E 32 outerV := by
  have hs : ∀ s ∈ [b! "b", b! "a"], ValidUtf8 s := by
    intro s hs
    simp only [List.mem_cons, List.not_mem_nil, or_false] at hs
    rcases hs with rfl | rfl
    · exact utf8_b
    · exact utf8_a
  constructor
  · intro t' k e kvs hw hk
    have hp := outer_within hw
    simp only [List.mem_cons, Prod.mk.injEq, reduceCtorEq, and_false, false_or, or_false, List.not_mem_nil, outerV, innerV, innerS] at hp
    rcases hp with ⟨rfl, he⟩ | ⟨rfl, he⟩
    · right
      cases he
      refine ⟨[.int 7, .int 10], by decide, rfl, fun i kv x h1 h2 => ?_⟩
      obtain ⟨rfl, rfl⟩ : k = 0 ∧ e = 10 := by
        have : (Kind.map 0 10) = .map k e := hk
        cases this; exact ⟨rfl, rfl⟩
      match i, h1, h2 with
      | 0, h1, h2 => cases h1; cases h2; exact ⟨0, .int, ⟨rfl, rfl⟩, rfl, byKind_of (by decide +kernel)⟩
      | 1, h1, h2 => cases h1; cases h2; exact ⟨0, .int, ⟨rfl, rfl⟩, rfl, byKind_of (by decide +kernel)⟩
      | _ + 2, h1, _ => cases h1
    · left
      cases he
      refine ⟨[b! "b", b! "a"], by decide, hs, rfl, fun i kv x h1 h2 => ?_⟩
      obtain ⟨rfl, rfl⟩ : k = 2 ∧ e = 0 := by
        have : (Kind.map 2 0) = .map k e := hk
        cases this; exact ⟨rfl, rfl⟩
      match i, h1, h2 with
      | 0, h1, h2 => cases h1; cases h2; exact ⟨2, ⟨rfl, rfl⟩, rfl⟩
      | 1, h1, h2 => cases h1; cases h2; exact ⟨2, ⟨rfl, rfl⟩, rfl⟩
      | _ + 2, h1, _ => cases h1
  · intro t' kvs hw
    have hp := outer_within hw
    simp only [List.mem_cons, Prod.mk.injEq, reduceCtorEq, and_false, false_or, or_false, List.not_mem_nil, outerV, innerV, innerS] at hp
    obtain ⟨rfl, he⟩ := hp
    cases he
    left
    refine ⟨[b! "b", b! "a"], by decide, hs, rfl, fun i kv x h1 h2 => ?_⟩
    match i, h1, h2 with
    | 0, h1, h2 => cases h1; cases h2; exact ⟨2, rfl, rfl⟩
    | 1, h1, h2 => cases h1; cases h2; exact ⟨2, rfl, rfl⟩
    | _ + 2, h1, _ => cases h1

/-- The hypotheses of `C23_order_plain` (and so of `C23_order_partial`), and the text. -/
example : marshalOpts { shopW with order := forwards } (shopH mapCells) 9 (some (32, 100)) [] =
    .ret (some (b! "{\"10\":{\"a\":1,\"b\":2},\"7\":{\"a\":1,\"b\":2}}")) none :=
  (C23_order_plain (shop_ready mapCells) toyFmt_contract shop_honestM shop_pathFree shop_order forwards_ok outer_holds outer_plain
    (fun o h => by cases h; rfl)).mp (by decide +kernel)

/-- The hypotheses of `C24_reordered`. -/
example : Reordered (b! "{\"10\":{\"a\":1,\"b\":2},\"7\":{\"a\":1,\"b\":2}}") (b! "{\"10\":{\"a\":1,\"b\":2},\"7\":{\"a\":1,\"b\":2}}") ∧
    Reordered (b! "{\"10\":{\"a\":1,\"b\":2},\"7\":{\"a\":1,\"b\":2}}") (b! "{\"10\":{\"a\":1,\"b\":2},\"7\":{\"b\":2,\"a\":1}}") :=
  ⟨C24_reordered (l := []) (l' := []) (shop_ready mapCells) toyFmt_contract shop_honestM shop_pathFree shop_order forwards_ok outer_holds (.inl rfl) (n := 9)
      (by decide +kernel) (by decide +kernel),
    C24_reordered (l := []) (l' := []) (ord := fun p n => if p.length = 0 then (List.range n).reverse else if p.head? = some 3 then forwards p n else (List.range n).reverse)
      (shop_ready mapCells) toyFmt_contract shop_honestM shop_pathFree shop_order
      (fun p n => by dsimp only; split; exact List.reverse_perm _; split; exact forwards_ok p n; exact List.reverse_perm _) outer_holds (.inr rfl) (n := 9)
      (by decide +kernel) (by decide +kernel)⟩

/-- A `map[string]interface{}` at 400 and a `sync.Map` at 300 with the same entries. -/
theorem twins_stand : ∃ p p', Stands shopW (shopH mapCells) 60 false false (.map 60 .string .iface) p
      (.map [(.str (b! "b"), .iface 0 (.int (.int 2))), (.str (b! "a"), .iface 0 (.int (.int 1)))]) ∧
    Stands shopW (shopH mapCells) 30 false false (.goType .syncMap) p' innerS := by
  obtain ⟨p, S⟩ : ∃ p, Stands shopW (shopH mapCells) 60 false false (.map 60 .string .iface) p
      (.map [(.str (b! "b"), .iface 0 (.int (.int 2))), (.str (b! "a"), .iface 0 (.int (.int 1)))]) :=
    shop_stands (w := 400) 6 (by decide +kernel) (by decide +kernel)
  obtain ⟨p', S'⟩ : ∃ p, Stands shopW (shopH mapCells) 30 false false (.goType .syncMap) p innerS :=
    shop_stands (w := 300) 6 (by decide +kernel) (by decide +kernel)
  exact ⟨p, p', S, S'⟩

/-- The hypotheses of `C23_C24_members` and of `C39_members`. -/
example : ∃ p p', Stands shopW (shopH mapCells) 60 false false (.map 60 .string .iface) p
      (.map [(.str (b! "b"), .iface 0 (.int (.int 2))), (.str (b! "a"), .iface 0 (.int (.int 1)))]) ∧ ByKind shopW.E 60 false ∧ KeyType shopW.E 2 ∧
    Stands shopW (shopH mapCells) 30 false false (.goType .syncMap) p' innerS ∧ (shopW.E 30).special = some .syncMap ∧
    run shopW (shopH mapCells) defaultEncOpts 5 [] (.map 60 .string .iface) p [] = .ok (b! "{\"a\":1,\"b\":2}") ∧
    run shopW (shopH mapCells) defaultEncOpts 5 [] (.goType .syncMap) p' [] = .ok (b! "{\"a\":1,\"b\":2}") := by
  obtain ⟨p, p', S, S'⟩ := twins_stand
  refine ⟨p, p', S, byKind_of (by decide +kernel), .inl rfl, S', rfl, ?_, ?_⟩
  · rw [stands_runV (shop_ready _) S]; decide +kernel
  · rw [stands_runV (shop_ready _) S']; decide +kernel

/-- The hypotheses of `C39_bad_key`: a bool as a key. -/
example : ∃ i p, Stands shopW (shopH [(100, .smap [(some (12, 110), some (0, 120))]), (110, .bool true), (120, .int (.int 7))]) 30 false false i p
    (.smap [(.iface 12 (.bool true), .iface 0 (.int (.int 7)))]) ∧ ¬ KeyType shopW.E 12 := by
  obtain ⟨p, S⟩ : ∃ p, Stands shopW (shopH [(100, .smap [(some (12, 110), some (0, 120))]), (110, .bool true), (120, .int (.int 7))]) 30 false false
      (.goType .syncMap) p (.smap [(.iface 12 (.bool true), .iface 0 (.int (.int 7)))]) :=
    shop_stands (w := 100) 6 (by decide +kernel) (by decide +kernel)
  exact ⟨_, p, S, by rw [← mapKeyOk_iff]; decide +kernel⟩

/-- A `map[*Soft]int`: see the universe below. -/
def softDefs : List TypeDef :=
  [ { kind := .int .int, name := b! "int", size := 8 },
    { kind := .string, name := b! "Soft", meths := { text := true }, pmeths := { text := true }, size := 16 },
    -- 4: map[*Soft]int
    { kind := .map 5 0, size := 8 } ]

theorem soft_ok : univOk softDefs = true := by decide +kernel

/-- The hypotheses of `C45_nil_key`. -/
example : ∃ i p, Stands (univW softDefs) (univHeap softDefs shopMeth [(100, .hmap [(110, 120), (130, 140)]), (110, .word 0), (120, .int (.int 7)),
      (130, .word 150), (140, .int (.int 8)), (150, .str (b! "x"))]) 4 false false i p (.map [(.nil, .int (.int 7)), (.ptr (.str (b! "x")), .int (.int 8))]) ∧
    ByKind (univW softDefs).E 4 false ∧ IsPtr (univW softDefs).E 5 ∧ ((univW softDefs).E 5).meths.text = true ∧
    run (univW softDefs) (univHeap softDefs shopMeth [(100, .hmap [(110, 120), (130, 140)]), (110, .word 0), (120, .int (.int 7)),
      (130, .word 150), (140, .int (.int 8)), (150, .str (b! "x"))]) defaultEncOpts 6 [] i p [] = .ok (b! "{\"\":7,\"t\":8}") := by
  obtain ⟨p, S⟩ := entry_stands (W := univW softDefs) (H := univHeap softDefs shopMeth [(100, .hmap [(110, 120), (130, 140)]), (110, .word 0), (120, .int (.int 7)),
      (130, .word 150), (140, .int (.int 8)), (150, .str (b! "x"))]) (t := 4) (w := 100) (i := .map 4 (.nilText (.marshaler .text 5 false)) (.int .int))
      (v := .map [(.nil, .int (.int 7)), (.ptr (.str (b! "x")), .int (.int 8))])
    (univ_ready soft_ok shopMeth _) (univ_repr 6 (by decide +kernel)) (by decide +kernel)
  refine ⟨_, p, S, byKind_of (by decide +kernel), ⟨2, rfl⟩, rfl, ?_⟩
  rw [stands_runV (univ_ready soft_ok shopMeth _) S]; decide +kernel

/-- Finding 21: a nil pointer with a `MarshalText` method as a key of a `sync.Map` gives the key
`null`, without quotes. -/
theorem C39_nil_text_key_wrong : ∃ H v out, Ready shopW H (univM shopMeth) ∧ ReprE shopW.E H.mem (some (30, 100)) (.iface 30 v) ∧
    v = .smap [(.iface 49 .nil, .iface 0 (.int (.int 7)))] ∧
    marshal shopW H 9 (some (30, 100)) = .ret (some out) none ∧ ∀ j, ¬ JsonText j out :=
  ⟨shopH [(100, .smap [(some (49, 0), some (0, 120))]), (120, .int (.int 7))], _, b! "{null:7}", shop_ready _, shop_holds 6 (by decide +kernel), rfl,
    by decide +kernel, not_jsonText (by decide +kernel)⟩

end Jettison.Props
