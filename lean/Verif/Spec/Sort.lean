import Verif.Model.Fields

/-! # Contract of the standard library's sort -/

namespace Jettison.Spec
open Jettison.Model (SortAlg)

/-- A strict weak order, which `sort.Sort` requires of `Less`. -/
structure StrictWeak {α : Type} (lt : α → α → Bool) : Prop where
  irrefl : ∀ a, lt a a = false
  trans : ∀ a b c, lt a b = true → lt b c = true → lt a c = true
  incomp : ∀ a b c, lt a b = false → lt b a = false → lt b c = false → lt c b = false →
    lt a c = false ∧ lt c a = false

/-- What `sort.Sort` and `sort.Slice` guarantee: a permutation of the input, in
order whenever `Less` is a strict weak order. No stability. -/
structure SortOk (sort : SortAlg) : Prop where
  perm : ∀ {α : Type} (lt : α → α → Bool) (l : List α), (sort lt l).Perm l
  sorted : ∀ {α : Type} (lt : α → α → Bool) (l : List α), StrictWeak lt →
    (sort lt l).Pairwise (fun a b => lt b a = false)

end Jettison.Spec
