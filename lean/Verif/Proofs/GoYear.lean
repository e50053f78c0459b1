import Verif.Proofs.Calendar

/-! # Uniqueness of calendar dates, and `time.Time.Year` -/

namespace Jettison.Proofs
open Jettison.Spec Jettison.Model

theorem daysBeforeYear_mono {a b : Nat} (h : a ≤ b) : daysBeforeYear a ≤ daysBeforeYear b := by
  induction h with
  | refl => exact Nat.le_refl _
  | step _ ih => rw [daysBeforeYear]; split <;> omega

theorem month_table : ∀ l : Bool, ∀ m m' : Fin 13, 1 ≤ m.val → m.val < m'.val →
    daysBeforeMonth (if l = true then 4 else 1) m.val + daysInMonth (if l = true then 4 else 1) m.val ≤
      daysBeforeMonth (if l = true then 4 else 1) m'.val := by
  decide +kernel

theorem month_year_table : ∀ l : Bool, ∀ m : Fin 13, 1 ≤ m.val →
    daysBeforeMonth (if l = true then 4 else 1) m.val + daysInMonth (if l = true then 4 else 1) m.val ≤
      if l then 366 else 365 := by
  decide +kernel

theorem month_lt (y : Nat) {m m' : Nat} (h1 : 1 ≤ m) (h12 : m' ≤ 12) (h : m < m') :
    daysBeforeMonth y m + daysInMonth y m ≤ daysBeforeMonth y m' := by
  have := month_table (decide (IsLeap y)) ⟨m, by omega⟩ ⟨m', by omega⟩ h1 h
  rw [daysBeforeMonth_leap (leap_rep y), daysBeforeMonth_leap (leap_rep y) m', daysInMonth_leap (leap_rep y)]
  exact this

theorem dayNumber_year {y m d : Nat} (h : ValidDate y m d) :
    daysBeforeYear y ≤ dayNumber y m d ∧ dayNumber y m d < daysBeforeYear (y + 1) := by
  obtain ⟨h1, h2, h3, h4⟩ := h
  have := month_year_table (decide (IsLeap y)) ⟨m, by omega⟩ h1
  simp only at this
  rw [← daysBeforeMonth_leap (leap_rep y), ← daysInMonth_leap (leap_rep y)] at this
  have e : (if decide (IsLeap y) = true then 366 else 365) = if IsLeap y then 366 else 365 := by
    by_cases hl : IsLeap y <;> simp [hl]
  rw [e] at this
  unfold dayNumber
  rw [daysBeforeYear]
  omega

theorem year_unique {y y' n : Nat} (h1 : daysBeforeYear y ≤ n) (h2 : n < daysBeforeYear (y + 1))
    (h1' : daysBeforeYear y' ≤ n) (h2' : n < daysBeforeYear (y' + 1)) : y = y' := by
  rcases Nat.lt_trichotomy y y' with h | h | h
  · have := daysBeforeYear_mono (show y + 1 ≤ y' from h); omega
  · exact h
  · have := daysBeforeYear_mono (show y' + 1 ≤ y from h); omega

/-- A day has one date. -/
theorem dayNumber_inj {y m d y' m' d' : Nat} (h : ValidDate y m d) (h' : ValidDate y' m' d')
    (e : dayNumber y m d = dayNumber y' m' d') : y = y' ∧ m = m' ∧ d = d' := by
  have hy := dayNumber_year h
  have hy' := dayNumber_year h'
  have e1 : y = y' := year_unique hy.1 hy.2 (by rw [e]; exact hy'.1) (by rw [e]; exact hy'.2)
  subst e1
  obtain ⟨a1, a2, a3, a4⟩ := h
  obtain ⟨b1, b2, b3, b4⟩ := h'
  unfold dayNumber at e
  rcases Nat.lt_trichotomy m m' with h | h | h
  · have := month_lt y a1 b2 h; omega
  · subst h; exact ⟨rfl, rfl, by omega⟩
  · have := month_lt y b1 a2 h; omega

/-- Every day has a date. -/
theorem dayNumber_surj (n : Nat) : ∃ y m d, ValidDate y m d ∧ dayNumber y m d = n := by
  induction n with
  | zero => exact ⟨0, 1, 1, by decide, rfl⟩
  | succ n ih =>
    obtain ⟨y, m, d, ⟨h1, h2, h3, h4⟩, hn⟩ := ih
    by_cases hd : d < daysInMonth y m
    · exact ⟨y, m, d + 1, ⟨h1, h2, by omega, hd⟩, by unfold dayNumber at *; omega⟩
    · by_cases hm : m < 12
      · refine ⟨y, m + 1, 1, ⟨by omega, by omega, by omega, ?_⟩, ?_⟩
        · have : ∀ l : Bool, ∀ m : Fin 12, 1 ≤ daysInMonth (if l = true then 4 else 1) (m.val + 1) := by
            decide +kernel
          rw [daysInMonth_leap (leap_rep y)]
          exact this _ ⟨m, hm⟩
        · unfold dayNumber at *
          match m, h1 with
          | m' + 1, _ => rw [daysBeforeMonth]; omega
      · have hm12 : m = 12 := by omega
        subst hm12
        refine ⟨y + 1, 1, 1, ⟨by omega, by omega, by omega, by simp [daysInMonth]⟩, ?_⟩
        have h334 : daysBeforeMonth y 12 = 334 + if IsLeap y then 1 else 0 := by
          rw [daysBeforeMonth_leap (leap_rep y)]
          by_cases hl : IsLeap y <;> simp [hl] <;> rfl
        have h31 : daysInMonth y 12 = 31 := rfl
        unfold dayNumber at *
        rw [daysBeforeYear, show daysBeforeMonth (y + 1) 1 = 0 from rfl]
        by_cases hl : IsLeap y
        · rw [if_pos hl] at *; omega
        · rw [if_neg hl] at *; omega

/-- A clock reading is unique. -/
theorem civilTime_unique {l : Int} {y mo d h mi s y' mo' d' h' mi' s' : Nat}
    (a : CivilTime l y mo d h mi s) (b : CivilTime l y' mo' d' h' mi' s') :
    y = y' ∧ mo = mo' ∧ d = d' ∧ h = h' ∧ mi = mi' ∧ s = s' := by
  obtain ⟨a1, a2, a3, a4, a5⟩ := a
  obtain ⟨b1, b2, b3, b4, b5⟩ := b
  have e : dayNumber y mo d = dayNumber y' mo' d' := by omega
  obtain ⟨e1, e2, e3⟩ := dayNumber_inj a1 b1 e
  refine ⟨e1, e2, e3, ?_, ?_, ?_⟩ <;> omega

/-- Days of the years before `y`, relative to 0001-01-01, for any integer year. -/
def beforeInt (y : Int) : Int := 365 * (y - 1) + (y - 1) / 4 - (y - 1) / 100 + (y - 1) / 400

theorem cycle_arith (D n400 d n n100 d1 n4 d2 n' n1 : Int) (h400 : n400 = D / 146097)
    (hd : d = D % 146097) (hn : n = d / 36524) (h100 : n100 = n - n / 4)
    (hd1 : d1 = d - 36524 * n100) (h4 : n4 = d1 / 1461) (hd2 : d2 = d1 - 1461 * n4)
    (hn' : n' = d2 / 365) (h1 : n1 = n' - n' / 4) :
    0 ≤ n100 ∧ n100 ≤ 3 ∧ 0 ≤ n4 ∧ n4 ≤ 24 ∧ 0 ≤ n1 ∧ n1 ≤ 3 ∧
    D = 146097 * n400 + 36524 * n100 + 1461 * n4 + 365 * n1 + (d2 - 365 * n1) ∧
    0 ≤ d2 - 365 * n1 ∧
    (d2 - 365 * n1 ≤ 364 ∨ (d2 - 365 * n1 = 365 ∧ n1 = 3 ∧ (n4 < 24 ∨ n100 = 3))) := by
  have b0 : 0 ≤ d ∧ d < 146097 := by omega
  have b1 : 0 ≤ n ∧ n ≤ 4 := by omega
  have b2 : 0 ≤ n100 ∧ n100 ≤ 3 := by omega
  have b3 : 0 ≤ d1 ∧ (d1 < 36524 ∨ (n100 = 3 ∧ d1 ≤ 36524)) := by omega
  have b4 : 0 ≤ n4 ∧ n4 ≤ 24 := by omega
  have b5 : 0 ≤ d2 ∧ d2 ≤ 1460 := by omega
  have b5' : d2 = 1460 → n4 < 24 ∨ n100 = 3 := by omega
  have b6 : 0 ≤ n' ∧ n' ≤ 4 := by omega
  have b7 : 0 ≤ n1 ∧ n1 ≤ 3 := by omega
  refine ⟨b2.1, b2.2, b4.1, b4.2, b7.1, b7.2, by omega, by omega, ?_⟩
  by_cases h : d2 = 1460
  · right
    have := b5' h
    refine ⟨by omega, by omega, this⟩
  · left; omega

/-- The year computed by the cycle arithmetic is the one whose days enclose the day. -/
theorem goYear_days (t : GoTime) :
    beforeInt (goYear t) ≤ (t.unix + t.offset + 62135596800) / 86400 ∧
      (t.unix + t.offset + 62135596800) / 86400 < beforeInt (goYear t + 1) := by
  obtain ⟨D, hD⟩ : ∃ D, D = (t.unix + t.offset + 62135596800) / 86400 := ⟨_, rfl⟩
  obtain ⟨a1, a2, a3, a4, a5, a6, a7, a8, a9⟩ := cycle_arith D _ _ _ _ _ _ _ _ _ rfl rfl rfl rfl rfl rfl rfl rfl rfl
  have e : goYear t = 400 * (D / 146097) + 100 * (D % 146097 / 36524 - D % 146097 / 36524 / 4) +
      4 * ((D % 146097 - 36524 * (D % 146097 / 36524 - D % 146097 / 36524 / 4)) / 1461) +
      ((D % 146097 - 36524 * (D % 146097 / 36524 - D % 146097 / 36524 / 4) -
        1461 * ((D % 146097 - 36524 * (D % 146097 / 36524 - D % 146097 / 36524 / 4)) / 1461)) / 365 -
      (D % 146097 - 36524 * (D % 146097 / 36524 - D % 146097 / 36524 / 4) -
        1461 * ((D % 146097 - 36524 * (D % 146097 / 36524 - D % 146097 / 36524 / 4)) / 1461)) / 365 / 4) + 1 := by
    subst hD; rfl
  rw [← hD, e]
  generalize D / 146097 = n400 at *
  generalize D % 146097 / 36524 - D % 146097 / 36524 / 4 = n100 at *
  generalize (D % 146097 - 36524 * n100) / 1461 = n4 at *
  generalize D % 146097 - 36524 * n100 - 1461 * n4 = d2 at *
  generalize d2 / 365 - d2 / 365 / 4 = n1 at *
  unfold beforeInt
  have q1 : (400 * n400 + 100 * n100 + 4 * n4 + n1 + 1 - 1) / 4 = 100 * n400 + 25 * n100 + n4 := by omega
  have q2 : (400 * n400 + 100 * n100 + 4 * n4 + n1 + 1 - 1) / 100 = 4 * n400 + n100 := by omega
  have q3 : (400 * n400 + 100 * n100 + 4 * n4 + n1 + 1 - 1) / 400 = n400 := by omega
  rw [q1, q2, q3]
  refine ⟨by omega, ?_⟩
  have r1 : (400 * n400 + 100 * n100 + 4 * n4 + n1 + 1 + 1 - 1) / 4 =
      100 * n400 + 25 * n100 + n4 + if n1 = 3 then 1 else 0 := by split <;> omega
  have r2 : (400 * n400 + 100 * n100 + 4 * n4 + n1 + 1 + 1 - 1) / 100 =
      4 * n400 + n100 + if n1 = 3 ∧ n4 = 24 then 1 else 0 := by split <;> omega
  have r3 : (400 * n400 + 100 * n100 + 4 * n4 + n1 + 1 + 1 - 1) / 400 =
      n400 + if n1 = 3 ∧ n4 = 24 ∧ n100 = 3 then 1 else 0 := by split <;> omega
  rw [r1, r2, r3]
  by_cases c1 : n1 = 3 <;> by_cases c2 : n4 = 24 <;> by_cases c3 : n100 = 3 <;>
    simp [c1, c2, c3] <;> omega

theorem beforeInt_nat (y : Nat) : beforeInt (y : Int) + 366 = (daysBeforeYear y : Int) := by
  unfold beforeInt
  have := daysBeforeYear_closed y
  omega

theorem beforeInt_neg (y : Int) (h : y ≤ 0) : beforeInt y ≤ -366 := by
  unfold beforeInt; omega

/-- `t.Year()` is the civil year, whenever there is one counted from year 0. -/
theorem goYear_civil (t : GoTime) {y mo d h mi s : Nat}
    (hc : CivilTime (t.unix + t.offset) y mo d h mi s) : goYear t = y := by
  obtain ⟨a1, a2, a3, a4, a5⟩ := hc
  unfold epochSeconds at a5
  have hy := dayNumber_year a1
  obtain ⟨g1, g2⟩ := goYear_days t
  have hD : (t.unix + t.offset + 62135596800) / 86400 = dayNumber y mo d - 366 := by omega
  rw [hD] at g1 g2
  have hpos : 0 ≤ goYear t := by
    have hlt : ¬ goYear t + 1 ≤ 0 := fun hh => by
      have := beforeInt_neg _ hh; omega
    omega
  obtain ⟨Y, hY⟩ : ∃ Y : Nat, goYear t = (Y : Int) := ⟨_, (Int.toNat_of_nonneg hpos).symm⟩
  rw [hY] at g1 g2
  have := beforeInt_nat Y
  have := beforeInt_nat (Y + 1)
  have e2 : ((Y + 1 : Nat) : Int) = (Y : Int) + 1 := by omega
  rw [e2] at this
  rw [hY]
  congr 1
  exact year_unique (n := dayNumber y mo d) (by omega) (by omega) hy.1 hy.2

/-- Before year 0 the year is negative. -/
theorem goYear_neg (t : GoTime) (h : t.unix + t.offset + epochSeconds < 0) : goYear t < 0 := by
  unfold epochSeconds at h
  obtain ⟨g1, g2⟩ := goYear_days t
  apply Int.lt_of_not_ge
  intro hh
  obtain ⟨Y, hY⟩ : ∃ Y : Nat, goYear t = (Y : Int) := ⟨_, (Int.toNat_of_nonneg hh).symm⟩
  rw [hY] at g1
  have := beforeInt_nat Y
  omega

end Jettison.Proofs
