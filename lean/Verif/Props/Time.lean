import Verif.Spec.Times
import Verif.Proofs.Time
import Verif.Proofs.GoYear

/-!
# C10, C11: times
-/

namespace Jettison.Props
open Jettison.Spec Jettison.Model Jettison.Proofs

/-- C10, for the accepted times from 0000-12-31T00:00:00 on (in particular all
times of years 1 to 9999): the output is the quoted RFC 3339 text, appended to the
destination, and the 37 byte scratch array is never overrun.
Missing for the full property: the rest of year 0, where the code is wrong
(`C10_year_zero_wrong`). -/
theorem C10_rfc3339_partial (fmt : GoTime → Bytes → Bytes) (t : GoTime) (dst : Bytes) (nano : Bool)
    (hn : t.nsec < 1000000000)
    (hlo : (dayNumber 0 12 31 * 86400 : Nat) ≤ t.unix + t.offset + epochSeconds)
    (hhi : t.unix + t.offset + epochSeconds < (dayNumber 10000 1 1 * 86400 : Nat)) :
    ∃ text, IsRFC3339 t nano text ∧
      encodeTime fmt t dst false (if nano then .rfc3339Nano else .rfc3339) =
        .ok (dst ++ (b! "\"" ++ text ++ b! "\"")) := by
  have e1 : dayNumber 0 12 31 = 365 := by decide +kernel
  have e2 : dayNumber 10000 1 1 = 3652425 := by
    have := daysBeforeYear_closed 10000
    unfold dayNumber
    simp [daysBeforeMonth]; omega
  rw [e1] at hlo
  rw [e2] at hhi
  obtain ⟨y, mo, d, h, mi, s, hc, hy, hb⟩ := putDateTime_spec t (by omega) (by omega)
  have hgy := goYear_civil t hc
  obtain ⟨f, hft, ha⟩ := appendRFC3339_of t dst _ nano (dateTimeText_length ..) hn hb
  refine ⟨_, ⟨y, mo, d, h, mi, s, f, hc, hy, hft, rfl⟩, ?_⟩
  unfold encodeTime
  rw [hgy, if_neg (by omega)]
  cases nano <;> simp [ha]

/-- Non-vacuity: 2021-03-04T05:06:07.12+01:30, and the value the model computes. -/
example : encodeTime (fun _ _ => []) ⟨1614828967, 120000000, 5400⟩ (b! "x") false .rfc3339Nano =
    .ok (b! "x\"2021-03-04T05:06:07.12+01:30\"") := by decide +kernel

example : ((dayNumber 0 12 31 * 86400 : Nat) : Int) ≤ 1614828967 + 5400 + epochSeconds ∧
    (1614828967 : Int) + 5400 + epochSeconds < (dayNumber 10000 1 1 * 86400 : Nat) := by
  have := daysBeforeYear_closed 10000
  have e1 : dayNumber 0 12 31 = 365 := by decide +kernel
  have e2 : dayNumber 10000 1 1 = 3652425 := by
    unfold dayNumber; simp [daysBeforeMonth]; omega
  rw [e1, e2]
  unfold epochSeconds; omega

/-- The date and clock reading of a time are unique, so `IsRFC3339` names one text up
to the fraction. -/
theorem C10_reading_unique {l : Int} {y mo d h mi s y' mo' d' h' mi' s' : Nat}
    (a : CivilTime l y mo d h mi s) (b : CivilTime l y' mo' d' h' mi' s') :
    y = y' ∧ mo = mo' ∧ d = d' ∧ h = h' ∧ mi = mi' ∧ s = s' := civilTime_unique a b

/-- Every clock reading from 0000-01-01 on has a civil time. -/
theorem C10_reading_exists (l : Int) (h : 0 ≤ l + epochSeconds) :
    ∃ y mo d h mi s, CivilTime l y mo d h mi s := by
  obtain ⟨N, hN⟩ : ∃ N : Nat, l + epochSeconds = (N : Int) := ⟨_, (Int.toNat_of_nonneg h).symm⟩
  obtain ⟨y, mo, d, hv, hd⟩ := dayNumber_surj (N / 86400)
  refine ⟨y, mo, d, N % 86400 / 3600, N % 86400 / 60 % 60, N % 60, hv, ?_, ?_, ?_, ?_⟩
  all_goals first | omega | skip

/-- The full C10 fails in year 0: 0000-06-15T12:34:56Z is accepted and printed as
something that is no clock reading. -/
theorem C10_year_zero_wrong :
    CivilTime (-62152831504) 0 6 15 12 34 56 ∧
    encodeTime (fun _ _ => []) ⟨-62152831504, 0, 0⟩ [] false .rfc3339 ≠
      .ok (b! "\"0000-06-15T12:34:56Z\"") := by
  refine ⟨⟨by decide, by omega, by omega, by omega, by decide +kernel⟩, by decide +kernel⟩

/-- C11, refusal: a time is refused, whatever the options, exactly when its clock
reading has no year in 0..9999; an error carries no bytes. -/
theorem C11_year_range (fmt : GoTime → Bytes → Bytes) (t : GoTime) (dst : Bytes)
    (unixTime : Bool) (layout : Layout) :
    encodeTime fmt t dst unixTime layout = .err ↔
      ¬ ∃ y mo d h mi s, y ≤ 9999 ∧ CivilTime (t.unix + t.offset) y mo d h mi s := by
  have hcond : (goYear t < 0 ∨ goYear t ≥ 10000) ↔
      ¬ ∃ y mo d h mi s, y ≤ 9999 ∧ CivilTime (t.unix + t.offset) y mo d h mi s := by
    constructor
    · rintro h ⟨y, mo, d, hh, mi, s, hy, hc⟩
      have := goYear_civil t hc
      omega
    · intro h
      by_cases h0 : t.unix + t.offset + epochSeconds < 0
      · exact Or.inl (goYear_neg t h0)
      · obtain ⟨y, mo, d, hh, mi, s, hc⟩ := C10_reading_exists (t.unix + t.offset) (by omega)
        have := goYear_civil t hc
        right
        apply Int.le_of_not_gt
        intro hlt
        exact h ⟨y, mo, d, hh, mi, s, by omega, hc⟩
  rw [← hcond]
  unfold encodeTime
  by_cases h : goYear t < 0 ∨ goYear t ≥ 10000
  · simp only [if_pos h, true_iff]
    exact h
  · simp only [if_neg h]
    constructor
    · intro he
      exfalso
      revert he
      split
      · simp
      · split <;> (try split) <;> simp
    · exact fun h' => absurd h' h

/-- C11, Unix times: an accepted time with `UnixTime` is the canonical decimal of its
Unix seconds, whatever the layout. -/
theorem C11_unix_time (fmt : GoTime → Bytes → Bytes) (t : GoTime) (dst : Bytes) (layout : Layout)
    {y mo d h mi s : Nat} (hy : y ≤ 9999) (hc : CivilTime (t.unix + t.offset) y mo d h mi s)
    (hu : -9223372036854775808 ≤ t.unix ∧ t.unix < 9223372036854775808) :
    ∃ text, encodeTime fmt t dst true layout = .ok (dst ++ text) ∧ IntLiteral text t.unix := by
  have := goYear_civil t hc
  unfold encodeTime
  rw [if_neg (by omega)]
  obtain ⟨text, h1, h2⟩ := appendInt_lit dst (Int64.ofInt t.unix)
  refine ⟨text, by simp [h1], ?_⟩
  rwa [Int64.toInt_ofInt_of_le (by omega) (by omega)] at h2

example : CivilTime (1614828967 + 5400) 2021 3 4 5 6 7 := by
  refine ⟨by decide, by omega, by omega, by omega, by decide +kernel⟩

example : encodeTime (fun _ _ => []) ⟨253402300800, 0, 0⟩ [] true .rfc3339 = .err := by decide +kernel
example : encodeTime (fun _ _ => []) ⟨253402300799, 0, 0⟩ [] true .rfc3339 =
    .ok (b! "253402300799") := by decide +kernel

end Jettison.Props
