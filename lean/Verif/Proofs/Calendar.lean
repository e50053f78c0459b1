import Verif.Spec.Calendar
import Verif.Model.Time

/-! # Calendar arithmetic: the `rdnToYmd` formulas against counting days -/

namespace Jettison.Proofs
open Jettison.Spec Jettison.Model

theorem daysBeforeYear_closed (y : Nat) :
    daysBeforeYear y + (y + 99) / 100 = 365 * y + (y + 3) / 4 + (y + 399) / 400 := by
  induction y with
  | zero => rfl
  | succ y ih =>
    rw [daysBeforeYear]
    by_cases h : IsLeap y
    · rw [if_pos h]; unfold IsLeap at h; omega
    · rw [if_neg h]; unfold IsLeap at h; omega

theorem leap_terms (y : Nat) : (y + 3) / 4 + y / 100 + (y + 399) / 400 + (if IsLeap y then 1 else 0) =
    y / 4 + (y + 99) / 100 + y / 400 + 1 := by
  by_cases h : IsLeap y
  · rw [if_pos h]; unfold IsLeap at h; omega
  · rw [if_neg h]; unfold IsLeap at h; omega

/-- Steps of the algorithm on natural numbers. -/
theorem baum_century (Z A B y : Nat) (hA : A = (100 * Z - 25) / 3652425)
    (hB : B = A - A / 4) (hy : y = (100 * B + (100 * Z - 25)) / 36525) : y / 100 = A := by
  omega

theorem baum_day (J y : Nat) (hJ : 1 ≤ J) (hy : y = (100 * J - 25) / 36525) :
    1461 * y / 4 + 1 ≤ J ∧ J - 1461 * y / 4 ≤ 366 ∧ (J - 1461 * y / 4 = 366 → y % 4 = 3) := by
  omega

theorem baum_leap (Z A B y : Nat) (hA : A = (100 * Z - 25) / 3652425)
    (hB : B = A - A / 4) (hyA : y / 100 = A) (h366 : B + Z - 1461 * y / 4 = 366)
    (h3 : y % 4 = 3) : IsLeap (y + 1) := by
  unfold IsLeap
  refine ⟨by omega, ?_⟩
  by_cases h : (y + 1) % 100 = 0
  · right
    have hy : y = 100 * A + 99 := by omega
    subst hy
    omega
  · exact Or.inl h

/-- Month and day from the day of a year starting in March. -/
def marMonth (d : Nat) : Nat := (535 * d + 48950) / 16384

theorem marMonth_table : ∀ d : Fin 367, ∀ l : Bool, 1 ≤ d.val →
    let m := marMonth d.val
    let r := if l then 4 else 1
    3 ≤ m ∧ m ≤ 14 ∧
    (m ≤ 12 → ∃ o, dayOffset[m]? = some o ∧ o.toNat + 1 ≤ d.val ∧
      d.val - o.toNat ≤ daysInMonth r m ∧
      daysBeforeMonth r m + (d.val - o.toNat) = daysBeforeMonth r 3 + d.val) ∧
    (13 ≤ m → (d.val = 366 → l = true) → ∃ o, dayOffset[m - 12]? = some o ∧ o.toNat + 1 ≤ d.val ∧
      d.val - o.toNat ≤ daysInMonth r (m - 12) ∧
      daysBeforeMonth r (m - 12) + (d.val - o.toNat) + 306 = d.val) := by
  have key : ∀ d : Fin 367, ∀ l : Bool, 1 ≤ d.val →
    let m := marMonth d.val
    let r := if l then 4 else 1
    let o := dayOffset[m]?.getD 0
    let o' := dayOffset[m - 12]?.getD 0
    3 ≤ m ∧ m ≤ 14 ∧
    (m ≤ 12 → dayOffset[m]? = some o ∧ o.toNat + 1 ≤ d.val ∧
      d.val - o.toNat ≤ daysInMonth r m ∧
      daysBeforeMonth r m + (d.val - o.toNat) = daysBeforeMonth r 3 + d.val) ∧
    (13 ≤ m → (d.val = 366 → l = true) → dayOffset[m - 12]? = some o' ∧ o'.toNat + 1 ≤ d.val ∧
      d.val - o'.toNat ≤ daysInMonth r (m - 12) ∧
      daysBeforeMonth r (m - 12) + (d.val - o'.toNat) + 306 = d.val) := by decide +kernel
  intro d l h
  obtain ⟨h1, h2, h3, h4⟩ := key d l h
  exact ⟨h1, h2, fun h => ⟨_, h3 h⟩, fun h h' => ⟨_, h4 h h'⟩⟩

theorem daysInMonth_leap {y z : Nat} (h : IsLeap y ↔ IsLeap z) (m : Nat) :
    daysInMonth y m = daysInMonth z m := by
  unfold daysInMonth
  split <;> simp_all

theorem daysBeforeMonth_leap {y z : Nat} (h : IsLeap y ↔ IsLeap z) (m : Nat) :
    daysBeforeMonth y m = daysBeforeMonth z m := by
  fun_induction daysBeforeMonth y m with
  | case1 => rfl
  | case2 => rfl
  | case3 m ih => rw [daysBeforeMonth, ih, daysInMonth_leap h]

theorem leap_rep (y : Nat) : IsLeap y ↔ IsLeap (if (decide (IsLeap y)) = true then 4 else 1) := by
  by_cases h : IsLeap y
  · simp only [h, decide_true, if_true, true_iff]; decide
  · simp only [h, decide_false, false_iff]; decide

/-- `rdnToYmd` on natural numbers is the calendar: `rdn` counts days from
0000-12-31. -/
theorem rdnToYmd_spec (rdn : UInt32) (h : rdn.toNat ≤ 3652059) :
    ∃ y m d, rdnToYmd rdn = some (y, m, d) ∧ ValidDate y.toNat m.toNat d.toNat ∧
      dayNumber y.toNat m.toNat d.toNat = rdn.toNat + 365 ∧ y.toNat ≤ 9999 := by
  obtain ⟨Z, hZ⟩ : ∃ Z : UInt32, Z = rdn + 306 := ⟨_, rfl⟩
  obtain ⟨H, hH⟩ : ∃ H : UInt32, H = 100 * Z - 25 := ⟨_, rfl⟩
  obtain ⟨A, hA⟩ : ∃ A : UInt32, A = H / 3652425 := ⟨_, rfl⟩
  obtain ⟨B, hB⟩ : ∃ B : UInt32, B = A - (A >>> 2) := ⟨_, rfl⟩
  obtain ⟨y, hy⟩ : ∃ y : UInt32, y = (100 * B + H) / 36525 := ⟨_, rfl⟩
  obtain ⟨d, hd⟩ : ∃ d : UInt32, d = B + Z - ((1461 * y) >>> 2) := ⟨_, rfl⟩
  obtain ⟨m, hm⟩ : ∃ m : UInt32, m = (535 * d + 48950) >>> 14 := ⟨_, rfl⟩
  have hZn : Z.toNat = rdn.toNat + 306 := by
    subst hZ; simp; omega
  have hHn : H.toNat = 100 * Z.toNat - 25 := by
    subst hH; simp [UInt32.toNat_sub]; omega
  have hAn : A.toNat = (100 * Z.toNat - 25) / 3652425 := by
    subst hA; simp [hHn]
  have hBn : B.toNat = A.toNat - A.toNat / 4 := by
    subst hB; simp [UInt32.toNat_sub, Nat.shiftRight_eq_div_pow]; omega
  have hyn : y.toNat = (100 * B.toNat + (100 * Z.toNat - 25)) / 36525 := by
    subst hy; simp [hHn]; omega
  have hc := baum_century Z.toNat A.toNat B.toNat y.toNat hAn hBn hyn
  have hday := baum_day (B.toNat + Z.toNat) y.toNat (by omega) (by omega)
  have hdn : d.toNat = B.toNat + Z.toNat - 1461 * y.toNat / 4 := by
    have hyb : y.toNat ≤ 10000 := by omega
    have e1 : (1461 * y).toNat = 1461 * y.toNat := by simp; omega
    have e2 : ((1461 * y) >>> 2).toNat = 1461 * y.toNat / 4 := by
      rw [UInt32.toNat_shiftRight, e1, Nat.shiftRight_eq_div_pow]; rfl
    have e3 : (B + Z).toNat = B.toNat + Z.toNat := by simp; omega
    rw [hd, UInt32.toNat_sub, e2, e3]; omega
  have hl366 : d.toNat = 366 → IsLeap (y.toNat + 1) := fun h366 =>
    baum_leap Z.toNat A.toNat B.toNat y.toNat hAn hBn hc (by omega) (hday.2.2 (by omega))
  have hmn : m.toNat = marMonth d.toNat := by
    subst hm; unfold marMonth; simp [Nat.shiftRight_eq_div_pow]; omega
  have hdlt : d.toNat < 367 := by omega
  have e : rdnToYmd rdn = (match dayOffset[(if m > 12 then (y + 1, m - 12) else (y, m)).2.toNat]? with
      | none => none
      | some o => some ((if m > 12 then (y + 1, m - 12) else (y, m)).1.toUInt16,
          (if m > 12 then (y + 1, m - 12) else (y, m)).2.toUInt16, d.toUInt16 - o)) := by
    subst hm hd hy hB hA hH hZ
    unfold rdnToYmd
    rfl
  have hyz : 365 * y.toNat + y.toNat / 4 + d.toNat = Z.toNat + B.toNat := by omega
  have hz : 365 * y.toNat + y.toNat / 4 + d.toNat + y.toNat / 400 = Z.toNat + y.toNat / 100 := by omega
  have hl9999 : y.toNat ≤ 9999 := by omega
  by_cases hm12 : m > 12
  · have hm12' : 13 ≤ m.toNat := by
      have : (12 : UInt32) < m := hm12
      rw [UInt32.lt_iff_toNat_lt] at this
      simp at this; omega
    rw [if_pos hm12] at e
    obtain ⟨h3, h14, -, ht⟩ := marMonth_table ⟨d.toNat, hdlt⟩ (decide (IsLeap (y.toNat + 1))) (by simp; omega)
    simp only at h3 h14 ht
    rw [← hmn] at ht h3 h14
    obtain ⟨o, ho, hod, hdim, hdb⟩ := ht hm12' (by simpa using hl366)
    have hmm : (m - 12).toNat = m.toNat - 12 := by
      simp [UInt32.toNat_sub]; omega
    have hmt : (m - 12).toUInt16.toNat = m.toNat - 12 := by
      rw [UInt32.toNat_toUInt16, hmm]; omega
    have hyt : (y + 1).toUInt16.toNat = y.toNat + 1 := by
      rw [UInt32.toNat_toUInt16, UInt32.toNat_add]; simp; omega
    have hdt : (d.toUInt16 - o).toNat = d.toNat - o.toNat := by
      rw [UInt16.toNat_sub, UInt32.toNat_toUInt16]; omega
    simp only [hmm, ho] at e
    refine ⟨_, _, _, e, ?_, ?_, ?_⟩
    · rw [hyt, hmt, hdt]
      refine ⟨by omega, by omega, by omega, ?_⟩
      rw [daysInMonth_leap (leap_rep (y.toNat + 1))]
      exact hdim
    · rw [hyt, hmt, hdt]
      unfold dayNumber
      rw [daysBeforeMonth_leap (leap_rep (y.toNat + 1))]
      have hc1 := daysBeforeYear_closed (y.toNat + 1)
      have q1 : (y.toNat + 1 + 3) / 4 = y.toNat / 4 + 1 := by omega
      have q2 : (y.toNat + 1 + 99) / 100 = y.toNat / 100 + 1 := by omega
      have q3 : (y.toNat + 1 + 399) / 400 = y.toNat / 400 + 1 := by omega
      rw [q1, q2, q3] at hc1
      clear ht hday hl366 h3 h14 hdn hyn hBn hAn hHn
      omega
    · rw [hyt]
      have hc1 := daysBeforeYear_closed (y.toNat + 1)
      have q1 : (y.toNat + 1 + 3) / 4 = y.toNat / 4 + 1 := by omega
      have q2 : (y.toNat + 1 + 99) / 100 = y.toNat / 100 + 1 := by omega
      have q3 : (y.toNat + 1 + 399) / 400 = y.toNat / 400 + 1 := by omega
      rw [q1, q2, q3] at hc1
      clear ht hday hl366 h3 h14 hdn hyn hBn hAn hHn
      omega
  · have hm12' : m.toNat ≤ 12 := by
      have : ¬ (12 : UInt32) < m := hm12
      rw [UInt32.lt_iff_toNat_lt] at this
      simp at this; omega
    rw [if_neg hm12] at e
    obtain ⟨h3, h14, ht, -⟩ := marMonth_table ⟨d.toNat, hdlt⟩ (decide (IsLeap y.toNat)) (by simp; omega)
    simp only at h3 h14 ht
    rw [← hmn] at ht h3 h14
    obtain ⟨o, ho, hod, hdim, hdb⟩ := ht hm12'
    have hmt : m.toUInt16.toNat = m.toNat := by
      rw [UInt32.toNat_toUInt16]; omega
    have hyt : y.toUInt16.toNat = y.toNat := by
      rw [UInt32.toNat_toUInt16]; omega
    have hdt : (d.toUInt16 - o).toNat = d.toNat - o.toNat := by
      rw [UInt16.toNat_sub, UInt32.toNat_toUInt16]; omega
    simp only [ho] at e
    refine ⟨_, _, _, e, ?_, ?_, ?_⟩
    · rw [hyt, hmt, hdt]
      refine ⟨by omega, by omega, by omega, ?_⟩
      rw [daysInMonth_leap (leap_rep y.toNat)]
      exact hdim
    · rw [hyt, hmt, hdt]
      unfold dayNumber
      rw [daysBeforeMonth_leap (leap_rep y.toNat)]
      have := daysBeforeYear_closed y.toNat
      have h59 : daysBeforeMonth (if (decide (IsLeap y.toNat)) = true then 4 else 1) 3 =
          59 + if IsLeap y.toNat then 1 else 0 := by
        by_cases hl : IsLeap y.toNat <;> simp [hl] <;> rfl
      rw [h59] at hdb
      clear ht hday hl366 h3 h14 hdn hyn hBn hAn hHn
      by_cases hl : IsLeap y.toNat
      · rw [if_pos hl] at hdb
        have q : (y.toNat + 3) / 4 + y.toNat / 100 + (y.toNat + 399) / 400 =
            y.toNat / 4 + (y.toNat + 99) / 100 + y.toNat / 400 := by
          have := leap_terms y.toNat; rw [if_pos hl] at this; omega
        omega
      · rw [if_neg hl] at hdb
        have q : (y.toNat + 3) / 4 + y.toNat / 100 + (y.toNat + 399) / 400 =
            y.toNat / 4 + (y.toNat + 99) / 100 + y.toNat / 400 + 1 := by
          have := leap_terms y.toNat; rw [if_neg hl] at this; omega
        omega
    · omega

end Jettison.Proofs
