import Verif.Props.CutText
import Verif.Props.Terminate

/-!
# Examples for what is returned beside an error (C66)
-/

namespace Jettison.Props
open Jettison Jettison.Spec Jettison.Model Jettison.Proofs

/-- At 500 a `[]Loud` whose second element fails. -/
def noisyCells : List (Addr × Cell) := [(500, .slice 520 3), (520, .str (b! "a")), (536, .str (b! "fail")), (552, .str (b! "boom"))]

def loudV : Val := .slice [.str (b! "a"), .str (b! "fail"), .str (b! "boom")]

theorem loud_holds : ReprE shopW.E (shopH noisyCells).mem (some (46, 500)) (.iface 46 loudV) := shop_holds 8 (by decide +kernel)

/-- The hypotheses of `C66_cut`: the second element of a field fails, after two fields of an embedded struct. -/
theorem worst_cut : Cut shopW (univM shopMeth) defaultEncOpts 42 false false worstV (.marshaler 22 .json (.user 3))
    (b! "{\"id\":9,\"when\":1000000000,\"Name\":\"base\",\"L\":[[1,2],") := by
  obtain ⟨c, h1, h2⟩ := C66_cut (opts := []) (n := 9) (dst := b! "x") (r := some (b! "x{\"id\":9,\"when\":1000000000,\"Name\":\"base\",\"L\":[[1,2],"))
    (e := .marshaler 22 .json (.user 3)) (shop_writes worstCells) shop_std worst_holds
    (timesB_fine (n := 6) (by decide +kernel)) rfl (by decide +kernel)
  have h3 := Option.some.inj h1
  rw [show b! "x{\"id\":9,\"when\":1000000000,\"Name\":\"base\",\"L\":[[1,2]," = b! "x" ++ b! "{\"id\":9,\"when\":1000000000,\"Name\":\"base\",\"L\":[[1,2]," from rfl] at h3
  rw [← List.append_cancel_left h3] at h2
  exact h2

/-- The hypotheses of `C66_no_text`. -/
example (j : Json) : ¬ JsonText j (b! "{\"id\":9,\"when\":1000000000,\"Name\":\"base\",\"L\":[[1,2],") := C66_no_text worst_cut j

/-- Maps of at most one entry. -/
theorem told_small {W : World} {M : MethV} {o : EncOpts} {t : TId} {v : Val}
    (h : ∀ t' v', Within W.E t v t' v' → ∀ kvs, v' = .map kvs ∨ v' = .smap kvs → kvs.length ≤ 1) : KeysTold W M o t v := by
  have one : ∀ {kvs : List (Val × Val)} {R : Val × Val → Val × Val → Prop}, kvs.length ≤ 1 → kvs.Pairwise R := by
    intro kvs R hl
    match kvs, hl with
    | [], _ => exact .nil
    | [x], _ => exact List.pairwise_singleton _ _
  exact ⟨fun _ _ _ _ hw _ => one (h _ _ hw _ (.inl rfl)), fun _ _ hw => one (h _ _ hw _ (.inr rfl))⟩

theorem worst_small : ∀ t' v', Within shopW.E 42 worstV t' v' → ∀ kvs, v' = .map kvs ∨ v' = .smap kvs → kvs.length ≤ 1 := by
  intro t' v' h kvs hk
  have := allParts_within (E := shopW.E) (P := fun _ v => match v with | .map kvs => kvs.length ≤ 1 | .smap kvs => kvs.length ≤ 1 | _ => true) (n := 6)
    (by decide +kernel) h
  rcases hk with rfl | rfl <;> simpa using this

/-- The hypotheses of `C66_unique`. -/
example (e : Err) (c : Bytes) (h : Cut shopW (univM shopMeth) defaultEncOpts 42 false false worstV e c) :
    c = b! "{\"id\":9,\"when\":1000000000,\"Name\":\"base\",\"L\":[[1,2]," := by
  refine C66_unique (shop_ready worstCells).types shop_pathFree rfl ?_ (timesB_fine (n := 6) (by decide +kernel)) (told_small worst_small) h worst_cut
  rcases reprE_cases worst_holds with h | ⟨d, y, h, p, hp⟩
  · cases h
  · cases h; exact repr_hasType hp

/-- The hypotheses of `C66_exact`. -/
example : appendOpts shopW (shopH worstCells) 9 (b! "old") (some (42, 100)) [] =
    .ret (some (b! "old{\"id\":9,\"when\":1000000000,\"Name\":\"base\",\"L\":[[1,2],")) (some (.encoding (.marshaler 22 .json (.user 3)))) :=
  (C66_exact (opts := []) (shop_writes worstCells) shop_std shop_pathFree worst_holds (timesB_fine (n := 6) (by decide +kernel)) rfl rfl
    (told_small worst_small) worst_one 9 (b! "old") (by decide +kernel) worst_cut).2

/-- The hypotheses of `C66_append`. -/
example : ∃ c, b! "x{" = b! "x" ++ c ∧ ∀ j, ¬ JsonText j c :=
  C66_append (opts := []) (n := 9) (shop_writes eitherCells) shop_std (t := 32) (w := 100)
    (v := .map [(.int (.int 1), .iface 22 (.str (b! "boom"))), (.int (.int 7), .iface 22 (.str (b! "fail")))]) (shop_holds 8 (by decide +kernel))
    (timesB_fine (n := 6) (by decide +kernel)) (e := .encoding (.marshaler 22 .json (.user 3))) rfl (by decide +kernel)

/-- Two entries: the value of the first has a text, that of the second fails. -/
def secondCells : List (Addr × Cell) :=
  [(100, .hmap [(140, 150), (110, 120)]), (110, .int (.int 1)), (140, .int (.int 7)), (120, .eface (some (22, 500))), (150, .eface (some (22, 520))),
   (500, .str (b! "a")), (520, .str (b! "fail"))]

/-- A map that is not sorted leaves the entries before the one that fails and its key, a map that is
sorted does not. -/
example : ∃ c, some (b! "x{\"1\":[1,2],\"7\":") = some (b! "x" ++ c) ∧
    Cut shopW (univM shopMeth) { defaultEncOpts with flags := bmSet defaultEncOpts.flags .unsortedMap } 32 false false
      (.map [(.int (.int 7), .iface 22 (.str (b! "fail"))), (.int (.int 1), .iface 22 (.str (b! "a")))]) (.marshaler 22 .json (.user 3)) c :=
  C66_cut (opts := [some (.flag .unsortedMap)]) (n := 9) (shop_writes secondCells) shop_std (w := 100) (shop_holds 8 (by decide +kernel))
    (timesB_fine (n := 6) (by decide +kernel)) rfl (by decide +kernel)

example : appendOpts shopW (shopH secondCells) 9 (b! "x") (some (32, 100)) [] = .ret (some (b! "x{")) (some (.encoding (.marshaler 22 .json (.user 3)))) := by
  decide +kernel

/-! ### A call that ends -/

def loudTypes : List TId := [46, 22]

theorem loud_part {u t : TId} (ht : t ∈ loudTypes) (h : PartOf shopW.E u t) : t = 46 ∧ u = 22 := by
  have k1 : (shopW.E 46).kind = .slice 22 := by decide +kernel
  have k2 : (shopW.E 22).kind = .string := by decide +kernel
  simp only [loudTypes, List.mem_cons, List.not_mem_nil, or_false] at ht
  rcases ht with rfl | rfl <;> cases h <;> rename_i h <;> simp_all

theorem loud_finite : FiniteTypes shopW.E loudTypes where
  parts t ht u h := by obtain ⟨rfl, rfl⟩ := loud_part ht h; decide +kernel
  fields t ht fs sf h hsf := by
    have k : ∀ t ∈ loudTypes, ∀ sf ∈ fieldsOfK (shopW.E t).kind, sf.typ ∈ loudTypes := by decide +kernel
    refine k t ht sf ?_
    have : (shopW.E t).kind = .struct fs := h
    rw [this]; exact hsf
  grounded t ht h := by
    have key : ∀ {u t : TId}, Inside shopW.E u t → t ∈ loudTypes → t = 46 ∧ u = 22 := by
      intro u t h
      induction h with
      | one h => exact fun ht => loud_part ht h
      | step h _ ih =>
        intro ht
        obtain ⟨rfl, rfl⟩ := ih ht
        exact absurd (loud_part (by decide) h).1 (by decide)
    obtain ⟨rfl, h⟩ := key h ht
    exact absurd h (by decide)

theorem loud_heap : HeapIn loudTypes (shopH noisyCells).mem := by
  have key : ∀ p c, (shopH noisyCells).mem.at p = some c → c ∈ noisyCells.map (·.2) ∨ ∃ a, c = .word a := by
    intro p c h
    cases p with
    | heap a =>
      simp only [Mem.at] at h
      split at h
      · cases h
      simp only [shopH, univHeap, Option.map_eq_some_iff] at h
      obtain ⟨x, h1, rfl⟩ := h
      exact .inl (List.mem_map.mpr ⟨x, List.mem_of_find?_eq_some h1, rfl⟩)
    | tmp a => exact .inr ⟨a, (Option.some.inj h).symm⟩
  refine ⟨fun p x h => ?_, fun p x h => ?_, fun p es h => ?_⟩ <;>
    (rcases key p _ h with h | ⟨a, h⟩
     · simp [noisyCells] at h
     · cases h)

def loudCall : Call := ⟨shopH noisyCells, shopW.order, some (46, 500), [], some (b! "x=")⟩

theorem loudCall_finite : FiniteCall shopW 20 200 loudCall loudTypes (univM shopMeth) :=
  ⟨loud_finite, by decide, by decide, shop_ready _, loud_heap, fun x hx => by
    cases hx
    exact ⟨by decide, loudV, loud_holds, by decide +kernel⟩⟩

theorem loud_small : ∀ t' v', Within shopW.E 46 loudV t' v' → ∀ kvs, v' = .map kvs ∨ v' = .smap kvs → kvs.length ≤ 1 := by
  intro t' v' h kvs hk
  have := allParts_within (E := shopW.E) (P := fun _ v => match v with | .map kvs => kvs.length ≤ 1 | .smap kvs => kvs.length ≤ 1 | _ => true) (n := 6)
    (by decide +kernel) h
  rcases hk with rfl | rfl <;> simpa using this

/-- The hypotheses of `C66_iff`. -/
example : Cut shopW (univM shopMeth) defaultEncOpts 46 false false loudV (.marshaler 22 .json (.user 3)) (b! "[[1,2],") := by
  refine (C66_iff (opts := []) loudCall_finite (shop_writes noisyCells) shop_std shop_pathFree (w := 500) rfl loud_holds rfl
    (timesB_fine (n := 6) (by decide +kernel)) rfl (told_small loud_small) (oneEntry_small (shop_ready noisyCells).types ?_ loud_small) (b! "x=")).mp (by decide +kernel)
  rcases reprE_cases loud_holds with h | ⟨d, y, h, p, hp⟩
  · cases h
  · cases h; exact repr_hasType hp

end Jettison.Props
