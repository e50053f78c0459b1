import Verif.Proofs.Sort

/-! # A sort that meets the contract of the standard library's -/

namespace Jettison.Proofs
open Jettison Jettison.Model Jettison.Spec

def insertBy {α : Type} (lt : α → α → Bool) (x : α) : List α → List α
  | [] => [x]
  | y :: t => if lt y x then y :: insertBy lt x t else x :: y :: t

/-- Insertion sort. -/
def isort : SortAlg := fun lt l => l.foldr (insertBy lt) []

theorem insertBy_perm {α : Type} (lt : α → α → Bool) (x : α) : ∀ l : List α, (insertBy lt x l).Perm (x :: l)
  | [] => List.Perm.refl _
  | y :: t => by
    simp only [insertBy]
    split
    · exact ((insertBy_perm lt x t).cons y).trans (List.Perm.swap _ _ _)
    · exact List.Perm.refl _

theorem insertBy_sorted {α : Type} {lt : α → α → Bool} (h : StrictWeak lt) (x : α) : ∀ l : List α,
    l.Pairwise (fun a b => lt b a = false) → (insertBy lt x l).Pairwise (fun a b => lt b a = false)
  | [], _ => by simp [insertBy]
  | y :: t, hl => by
    rw [List.pairwise_cons] at hl
    simp only [insertBy]
    split
    · rename_i hyx
      rw [List.pairwise_cons]
      refine ⟨?_, insertBy_sorted h x t hl.2⟩
      intro z hz
      have := (insertBy_perm lt x t).mem_iff.mp hz
      simp only [List.mem_cons] at this
      rcases this with rfl | hz
      · cases hzy : lt z y with
        | false => rfl
        | true => have := h.trans _ _ _ hyx hzy; rw [h.irrefl] at this; cases this
      · exact hl.1 z hz
    · rename_i hyx
      have hyx : lt y x = false := by simpa using hyx
      refine List.pairwise_cons.mpr ⟨?_, List.pairwise_cons.mpr hl⟩
      intro z hz
      simp only [List.mem_cons] at hz
      rcases hz with rfl | hz
      · exact hyx
      · -- ¬ z < y and ¬ y < x give ¬ z < x
        cases hzx : lt z x with
        | false => rfl
        | true =>
          exfalso
          have hzy := hl.1 z hz
          cases hxy : lt x y with
          | true => have := h.trans _ _ _ hzx hxy; rw [hzy] at this; cases this
          | false =>
            cases hyz : lt y z with
            | true => have := h.trans _ _ _ hyz hzx; rw [hyx] at this; cases this
            | false =>
              have := (h.incomp z y x hzy hyz hyx hxy).1
              rw [hzx] at this; cases this

theorem isort_ok : SortOk isort where
  perm := by
    intro α lt l
    induction l with
    | nil => exact List.Perm.refl _
    | cons a l ih => exact (insertBy_perm lt a _).trans (ih.cons a)
  sorted := by
    intro α lt l h
    induction l with
    | nil => simp [isort]
    | cons a l ih => exact insertBy_sorted h a _ ih

end Jettison.Proofs
