import Verif.Proofs.YearZero
import Verif.Props.Time

/-!
# C10 exactly: which times are written right
-/

namespace Jettison.Props
open Jettison.Spec Jettison.Model Jettison.Proofs

/-- C10, exactly: the text of an accepted time is right if and only if the time is from 0000-12-31 on, or a
midnight from 0000-03-01 on. -/
theorem C10_rfc3339_iff (fmt : GoTime → Bytes → Bytes) (t : GoTime) (dst : Bytes) (nano : Bool) (hn : t.nsec < 1000000000)
    (ha : ∃ y mo d h mi s, y ≤ 9999 ∧ CivilTime (t.unix + t.offset) y mo d h mi s) :
    (∃ text, IsRFC3339 t nano text ∧
      encodeTime fmt t dst false (if nano then .rfc3339Nano else .rfc3339) = .ok (dst ++ (b! "\"" ++ text ++ b! "\""))) ↔
    (dayNumber 0 12 31 * 86400 : Nat) ≤ t.unix + t.offset + epochSeconds ∨
      ∃ day : Nat, t.unix + t.offset + epochSeconds = (day * 86400 : Nat) ∧ dayNumber 0 3 1 ≤ day := by
  have e1 : dayNumber 0 12 31 = 365 := by decide +kernel
  have e0 : dayNumber 0 3 1 = 60 := by decide +kernel
  have e2 : dayNumber 10000 1 1 = 3652425 := by
    have := daysBeforeYear_closed 10000
    unfold dayNumber
    simp [daysBeforeMonth]; omega
  obtain ⟨y0, mo0, d0, h0, mi0, s0, hy0, hc0⟩ := ha
  have hhi : t.unix + t.offset + epochSeconds < (dayNumber 10000 1 1 * 86400 : Nat) := by
    have hm := daysBeforeYear_mono (show y0 + 1 ≤ 10000 by omega)
    have hd := dayNumber_year hc0.1
    have := hc0.2.2.2.2
    have h1 := hc0.2.1
    have h2 := hc0.2.2.1
    have h3 := hc0.2.2.2.1
    have : dayNumber 10000 1 1 = daysBeforeYear 10000 := by rw [dayNumber]; simp [daysBeforeMonth]
    omega
  have hgy := goYear_civil t hc0
  by_cases hlo : (dayNumber 0 12 31 * 86400 : Nat) ≤ t.unix + t.offset + epochSeconds
  · exact ⟨fun _ => .inl hlo, fun _ => C10_rfc3339_partial fmt t dst nano hn hlo hhi⟩
  rw [e1] at *
  rw [e0]
  obtain ⟨n, hS⟩ : ∃ n : Nat, t.unix + t.offset + 62135683200 = -(n : Int) :=
    ⟨(-(t.unix + t.offset + 62135683200)).toNat, by unfold epochSeconds at hlo; omega⟩
  have hl := hc0.2.2.2.2
  have hn2 : n ≤ 365 * 86400 := by unfold epochSeconds at hl; omega
  obtain ⟨y, m, d, hr, hgood, hbad⟩ := rdnToYmd_year_zero (n / 86400) (by omega)
  obtain ⟨f, hft, he⟩ := appendRFC3339_of t dst _ nano (zeroText_length ..) hn (putDateTime_zero t n y m d hS hr)
  have hE : encodeTime fmt t dst false (if nano then .rfc3339Nano else .rfc3339) =
      .ok (dst ++ (b! "\"" ++ (zeroText y.toNat m.toNat d.toNat (n % 86400) ++ f ++ zoneText t.offset) ++ b! "\"")) := by
    unfold encodeTime
    rw [hgy, if_neg (by omega)]
    cases nano <;> simp [he]
  rw [hE]
  constructor
  · rintro ⟨text, ⟨y', mo', d', h', mi', s', f', hc, hy', hft', rfl⟩, h⟩
    simp only [BRes.ok.injEq, List.append_cancel_left_eq, List.append_assoc] at h
    obtain ⟨hz, -⟩ := List.append_inj h (by rw [zeroText_length, dateTimeText_length])
    obtain ⟨hm, hy⟩ := zeroText_midnight (Nat.mod_lt _ (by decide)) hz
    have hl' := hc.2.2.2.2
    right
    have hy0' : y' = 0 := by
      have hd := dayNumber_year hc.1
      have : daysBeforeYear 1 = 366 := by decide +kernel
      apply Nat.eq_zero_of_not_pos
      intro hpos
      have := daysBeforeYear_mono (show 1 ≤ y' from hpos)
      omega
    refine ⟨365 - n / 86400, by unfold epochSeconds; omega, ?_⟩
    have : ¬ 306 ≤ n / 86400 := by
      intro h; rw [(hbad h).1, hy0'] at hy; exact absurd hy (by decide)
    omega
  · rintro (h | ⟨day, hd, h60⟩)
    · exact absurd h hlo
    · have hd2 : t.unix + t.offset + 62135683200 = ((day * 86400 : Nat) : Int) - 31536000 := by unfold epochSeconds at hd; omega
      have hlo2 : ¬ (365 * 86400 : Nat) ≤ t.unix + t.offset + epochSeconds := hlo
      obtain ⟨hy, hv, hdn⟩ := hgood (by omega)
      subst hy
      have hm : n % 86400 = 0 := by omega
      rw [hm, zeroText_zero]
      refine ⟨_, ⟨0, m.toNat, d.toNat, 0, 0, 0, f, ⟨hv, by decide, by decide, by decide, ?_⟩, by decide, hft, rfl⟩, rfl⟩
      unfold epochSeconds; omega

/-- C10, for the times that are left: what is written for an accepted time before 0000-12-31. -/
theorem C10_year_zero (fmt : GoTime → Bytes → Bytes) (t : GoTime) (dst : Bytes) (nano : Bool) (hn : t.nsec < 1000000000)
    (h0 : 0 ≤ t.unix + t.offset + epochSeconds) (hlo : ¬ FromDec31 t) :
    ∃ text, IsStrayTime t nano text ∧
      encodeTime fmt t dst false (if nano then .rfc3339Nano else .rfc3339) = .ok (dst ++ (b! "\"" ++ text ++ b! "\"")) := by
  have e1 : dayNumber 0 12 31 = 365 := by decide +kernel
  have e0 : dayNumber 0 3 1 = 60 := by decide +kernel
  unfold FromDec31 at hlo
  rw [e1] at hlo
  obtain ⟨y0, mo0, d0, hh0, mi0, s0, hc0⟩ := C10_reading_exists (t.unix + t.offset) h0
  have hgy := goYear_civil t hc0
  have hy0 : y0 = 0 := by
    have hl := hc0.2.2.2.2
    have hd := dayNumber_year hc0.1
    have : daysBeforeYear 1 = 366 := by decide +kernel
    apply Nat.eq_zero_of_not_pos
    intro hpos
    have := daysBeforeYear_mono (show 1 ≤ y0 from hpos)
    omega
  obtain ⟨n, hS⟩ : ∃ n : Nat, t.unix + t.offset + 62135683200 = -(n : Int) :=
    ⟨(-(t.unix + t.offset + 62135683200)).toNat, by unfold epochSeconds at hlo; omega⟩
  have hn2 : n ≤ 365 * 86400 := by unfold epochSeconds at h0; omega
  obtain ⟨y, m, d, hr, hgood, hbad⟩ := rdnToYmd_year_zero (n / 86400) (by omega)
  obtain ⟨f, hft, he⟩ := appendRFC3339_of t dst _ nano (zeroText_length ..) hn (putDateTime_zero t n y m d hS hr)
  refine ⟨zeroText y.toNat m.toNat d.toNat (n % 86400) ++ f ++ zoneText t.offset, ⟨365 - n / 86400, y.toNat, m.toNat, d.toNat, n % 86400 / 3600, n % 86400 / 60 % 60, n % 86400 % 60, f, ?_, by omega, by omega, by omega, ?_, ?_, hft, ?_⟩, ?_⟩
  · unfold epochSeconds; omega
  · by_cases hk : n / 86400 ≤ 305
    · obtain ⟨rfl, h, -⟩ := hgood hk; exact h
    · obtain ⟨rfl, h, -⟩ := hbad (by omega); exact h
  · rw [e0]
    by_cases hk : n / 86400 ≤ 305
    · obtain ⟨rfl, -, h⟩ := hgood hk
      rw [if_pos (by omega), show (0 : UInt16).toNat = 0 from rfl]; omega
    · obtain ⟨rfl, -, h⟩ := hbad (by omega)
      rw [if_neg (by omega), show (2 : UInt16).toNat = 2 from rfl]; omega
  · rw [zeroText_minus (Nat.mod_lt _ (by decide))]
  · unfold encodeTime
    rw [hgy, if_neg (by omega)]
    cases nano <;> simp [he]

/-- The text of 0000-06-15T12:34:56Z: what is left of the day, 11:25:04, in characters below `'0'`, on the next day. -/
example : encodeTime (fun _ _ => []) ⟨-62152831504, 0, 0⟩ [] false .rfc3339 = .ok (b! "\"0000-06-16T//:.+:0,Z\"") := by decide +kernel

/-- A midnight of year 0 that is written right, and one that is not. -/
example : encodeTime (fun _ _ => []) ⟨-62135683200 - 305 * 86400, 0, 0⟩ [] false .rfc3339 = .ok (b! "\"0000-03-01T00:00:00Z\"") ∧
    encodeTime (fun _ _ => []) ⟨-62135683200 - 306 * 86400, 0, 0⟩ [] false .rfc3339 = .ok (b! "\"0002-07-30T00:00:00Z\"") := by decide +kernel

/-- The hypotheses of `C10_rfc3339_iff`, for a time of year 0 that is not a midnight. -/
example : ¬ ∃ text, IsRFC3339 ⟨-62152831504, 0, 0⟩ false text ∧
    encodeTime (fun _ _ => []) ⟨-62152831504, 0, 0⟩ [] false .rfc3339 = .ok ([] ++ (b! "\"" ++ text ++ b! "\"")) := by
  intro hx
  have h := (C10_rfc3339_iff (fun _ _ => []) ⟨-62152831504, 0, 0⟩ [] false (by decide)
    ⟨0, 6, 15, 12, 34, 56, by decide, by rw [Int.add_zero]; exact C10_year_zero_wrong.1⟩).mp hx
  have e1 : dayNumber 0 12 31 = 365 := by decide +kernel
  rw [e1] at h
  unfold epochSeconds at h
  rcases h with h | ⟨day, h, -⟩ <;> simp at h <;> omega

/-- C10: no time makes the encoder panic, whatever its zone. -/
theorem C10_no_panic (fmt : GoTime → Bytes → Bytes) (t : GoTime) (dst : Bytes) (unixTime : Bool) (layout : Layout) (hn : t.nsec < 1000000000) :
    encodeTime fmt t dst unixTime layout ≠ .panic := by
  have key : ∀ nano, ¬ (goYear t < 0 ∨ goYear t ≥ 10000) → ∃ b, appendRFC3339Time t dst nano = some b := by
    intro nano hg
    have h0 : ¬ t.unix + t.offset + epochSeconds < 0 := fun h => hg (.inl (goYear_neg t h))
    obtain ⟨y0, mo0, d0, hh0, mi0, s0, hc0⟩ := C10_reading_exists (t.unix + t.offset) (by omega)
    have hgy := goYear_civil t hc0
    have hhi : t.unix + t.offset + epochSeconds < 3652425 * 86400 := by
      have hm := daysBeforeYear_mono (show y0 + 1 ≤ 10000 by omega)
      have hd := dayNumber_year hc0.1
      have := hc0.2.2.2.2
      have h1 := hc0.2.1
      have h2 := hc0.2.2.1
      have h3 := hc0.2.2.2.1
      have := daysBeforeYear_closed 10000
      omega
    by_cases hlo : 365 * 86400 ≤ t.unix + t.offset + epochSeconds
    · obtain ⟨y, mo, d, h, mi, s, hc, hy, hb⟩ := putDateTime_spec t hlo hhi
      obtain ⟨f, hft, ha⟩ := appendRFC3339_of t dst _ nano (dateTimeText_length ..) hn hb
      exact ⟨_, ha⟩
    · obtain ⟨n, hS⟩ : ∃ n : Nat, t.unix + t.offset + 62135683200 = -(n : Int) :=
        ⟨(-(t.unix + t.offset + 62135683200)).toNat, by unfold epochSeconds at hlo; omega⟩
      have hn2 : n ≤ 365 * 86400 := by unfold epochSeconds at h0; omega
      obtain ⟨y, m, d, hr, -, -⟩ := rdnToYmd_year_zero (n / 86400) (by omega)
      obtain ⟨f, hft, he⟩ := appendRFC3339_of t dst _ nano (zeroText_length ..) hn (putDateTime_zero t n y m d hS hr)
      exact ⟨_, he⟩
  unfold encodeTime
  by_cases hg : goYear t < 0 ∨ goYear t ≥ 10000
  · simp [hg]
  · obtain ⟨b1, h1⟩ := key false hg
    obtain ⟨b2, h2⟩ := key true hg
    simp only [if_neg hg]
    cases unixTime <;> cases layout <;> simp [h1, h2]

end Jettison.Props
