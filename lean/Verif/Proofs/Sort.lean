import Verif.Spec.Sort
import Verif.Spec.Fields

/-! # Orders used for sorting -/

namespace Jettison.Proofs
open Jettison Jettison.Model Jettison.Spec

theorem indexLess_irrefl : ∀ x, indexLess x x = false
  | [] => by simp [indexLess]
  | a :: x => by simp [indexLess, indexLess_irrefl x]

theorem indexLess_trans : ∀ x y z, indexLess x y = true → indexLess y z = true → indexLess x z = true
  | [], [], z => by simp [indexLess]
  | [], b :: y, [] => by simp [indexLess]
  | [], b :: y, c :: z => by simp [indexLess]
  | a :: x, [], z => by simp [indexLess]
  | a :: x, b :: y, [] => by simp [indexLess]
  | a :: x, b :: y, c :: z => by
    have ih := indexLess_trans x y z
    simp only [indexLess]
    by_cases h1 : a = b <;> by_cases h2 : b = c <;> by_cases h3 : a = c <;> simp_all <;> omega

theorem indexLess_total : ∀ x y, indexLess x y = false → indexLess y x = false → x = y
  | [], [] => by simp
  | [], b :: y => by simp [indexLess]
  | a :: x, [] => by simp [indexLess]
  | a :: x, b :: y => by
    have ih := indexLess_total x y
    simp only [indexLess]
    by_cases h1 : a = b
    · subst h1; simpa using ih
    · have h1' : ¬ b = a := fun h => h1 h.symm
      simp [h1, h1']; omega

theorem indexLess_iff : ∀ x y, indexLess x y = true ↔ PathLt x y
  | [], [] => by simp [indexLess, PathLt]
  | [], b :: y => by simp [indexLess, PathLt]
  | a :: x, [] => by simp [indexLess, PathLt]
  | a :: x, b :: y => by
    have ih := indexLess_iff x y
    simp only [indexLess, PathLt]
    by_cases h1 : a = b
    · subst h1; simpa using ih
    · simp [h1]

theorem bytesLess_irrefl : ∀ x, bytesLess x x = false
  | [] => by simp [bytesLess]
  | a :: x => by simp [bytesLess, bytesLess_irrefl x]

theorem bytesLess_trans : ∀ x y z, bytesLess x y = true → bytesLess y z = true → bytesLess x z = true
  | [], [], z => by simp [bytesLess]
  | [], b :: y, [] => by simp [bytesLess]
  | [], b :: y, c :: z => by simp [bytesLess]
  | a :: x, [], z => by simp [bytesLess]
  | a :: x, b :: y, [] => by simp [bytesLess]
  | a :: x, b :: y, c :: z => by
    have ih := bytesLess_trans x y z
    simp only [bytesLess]
    by_cases h1 : a = b
    · subst h1
      by_cases h2 : a = c
      · subst h2; simpa using ih
      · simp [h2]
    · by_cases h2 : b = c
      · subst h2; simp [h1]; intro h _; exact h
      · simp only [h1, h2, ne_eq, not_false_eq_true, if_true, decide_eq_true_eq]
        intro h h'
        have h3 : a < c := by rw [UInt8.lt_iff_toNat_lt] at *; omega
        have h4 : ¬ a = c := by intro h5; subst h5; rw [UInt8.lt_iff_toNat_lt] at *; omega
        simp [h3, h4]

theorem bytesLess_total : ∀ x y, bytesLess x y = false → bytesLess y x = false → x = y
  | [], [] => by simp
  | [], b :: y => by simp [bytesLess]
  | a :: x, [] => by simp [bytesLess]
  | a :: x, b :: y => by
    have ih := bytesLess_total x y
    simp only [bytesLess]
    by_cases h1 : a = b
    · subst h1; simpa using ih
    · have h1' : ¬ b = a := fun h => h1 h.symm
      simp only [h1, h1', ne_eq, not_false_eq_true, if_true, decide_eq_false_iff_not]
      intro h h'
      exfalso
      apply h1
      rw [UInt8.lt_iff_toNat_lt] at *
      exact UInt8.toNat_inj.mp (by omega)

/-- A transitive irreflexive order with trichotomy up to a key is strict weak. -/
theorem strictWeak_of_key {α β : Type} (key : α → β) (lt : α → α → Bool)
    (hi : ∀ a, lt a a = false) (ht : ∀ a b c, lt a b = true → lt b c = true → lt a c = true)
    (hk : ∀ a b, lt a b = false → lt b a = false → key a = key b)
    (hc : ∀ a b, key a = key b → lt a b = false) : StrictWeak lt where
  irrefl := hi
  trans := ht
  incomp a b c h1 h2 h3 h4 := by
    have e := (hk a b h1 h2).trans (hk b c h3 h4)
    exact ⟨hc a c e, hc c a e.symm⟩

theorem strictWeak_index : StrictWeak (fun x y : Fld => indexLess x.index y.index) :=
  strictWeak_of_key (fun f => f.index) _ (fun _ => indexLess_irrefl _)
    (fun _ _ _ => indexLess_trans _ _ _) (fun _ _ => indexLess_total _ _)
    (fun a b h => by rw [show a.index = b.index from h]; exact indexLess_irrefl _)

theorem fldLess_trans (a b c : Fld) (h1 : fldLess a b = true) (h2 : fldLess b c = true) : fldLess a c = true := by
  simp only [fldLess] at *
  by_cases n1 : a.name = b.name
  · by_cases n2 : b.name = c.name
    · simp only [n1, n2, ne_eq, not_true_eq_false, if_false] at *
      by_cases l1 : a.index.length = b.index.length
      · by_cases l2 : b.index.length = c.index.length
        · simp only [l1, l2, not_true_eq_false, if_false] at *
          by_cases t1 : a.tag = b.tag
          · by_cases t2 : b.tag = c.tag
            · simp only [t1, t2, not_true_eq_false, if_false] at *
              exact indexLess_trans _ _ _ h1 h2
            · simp only [t1, t2, not_true_eq_false, not_false_eq_true, if_true, if_false] at *
              exact h2
          · by_cases t2 : b.tag = c.tag
            · simp only [t1, ← t2, not_true_eq_false, not_false_eq_true, if_true, if_false] at *
              exact h1
            · simp only [t1, t2, not_false_eq_true, if_true] at h1 h2
              rw [h1, h2] at t1
              exact absurd rfl t1
        · simp only [l1, l2, not_true_eq_false, not_false_eq_true, if_true, if_false] at *
          exact h2
      · by_cases l2 : b.index.length = c.index.length
        · simp only [l1, ← l2, not_true_eq_false, not_false_eq_true, if_true, if_false] at *
          exact h1
        · simp only [l1, l2, not_false_eq_true, if_true, decide_eq_true_eq] at *
          have : ¬ a.index.length = c.index.length := by omega
          simp only [this, not_false_eq_true, if_true, decide_eq_true_eq]
          omega
    · simp only [n1, n2, ne_eq, not_true_eq_false, not_false_eq_true, if_true, if_false] at *
      exact h2
  · by_cases n2 : b.name = c.name
    · simp only [n1, ← n2, ne_eq, not_true_eq_false, not_false_eq_true, if_true, if_false] at *
      exact h1
    · simp only [n1, n2, ne_eq, not_false_eq_true, if_true] at *
      have h3 := bytesLess_trans _ _ _ h1 h2
      have : ¬ a.name = c.name := by
        intro h; rw [h, bytesLess_irrefl] at h3; cases h3
      simp only [this, not_false_eq_true, if_true]
      exact h3

theorem strictWeak_fld : StrictWeak fldLess := by
  refine strictWeak_of_key (fun f => (f.name, f.tag, f.index)) _ ?_ fldLess_trans ?_ ?_
  · intro a; simp [fldLess, indexLess_irrefl]
  · intro a b h1 h2
    simp only [fldLess] at h1 h2
    by_cases n : a.name = b.name
    · simp only [n, ne_eq, not_true_eq_false, if_false] at h1 h2
      by_cases l : a.index.length = b.index.length
      · simp only [l, not_true_eq_false, if_false] at h1 h2
        by_cases t : a.tag = b.tag
        · simp only [t, not_true_eq_false, if_false] at h1 h2
          simp [n, t, indexLess_total _ _ h1 h2]
        · have t' : ¬ b.tag = a.tag := fun h => t h.symm
          simp only [t, t', not_false_eq_true, if_true] at h1 h2
          rw [h1, h2] at t
          exact absurd rfl t
      · have l' : ¬ b.index.length = a.index.length := fun h => l h.symm
        simp only [l, l', not_false_eq_true, if_true, decide_eq_false_iff_not] at h1 h2
        omega
    · have n' : ¬ b.name = a.name := fun h => n h.symm
      simp only [n, n', ne_eq, not_false_eq_true, if_true] at h1 h2
      exact absurd (bytesLess_total _ _ h1 h2) n
  · intro a b h
    simp only [Prod.mk.injEq] at h
    obtain ⟨h1, h2, h3⟩ := h
    simp [fldLess, h1, h2, h3, indexLess_irrefl]

end Jettison.Proofs
