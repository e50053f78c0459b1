import Verif.Proofs.Duration

/-! # Properties C12, C13: durations -/

namespace Jettison.Props
open Jettison.Spec Jettison.Model Jettison.Proofs

/-- **C12.** For every `int64` duration the scratch area suffices (no panic) and the
text between the quotes, read as a Go duration, is exactly the duration; the text
needs no JSON escaping. -/
theorem C12_denotes (fmt : FloatFmt) (df : DurFloat) (d : Int64) (dst : Bytes) :
    ∃ t, encodeDuration fmt df d dst .str = .ok (dst ++ b! "\"" ++ t ++ b! "\"") ∧
      readDuration t = some d.toInt ∧ unescape t = some t := by
  obtain ⟨t, h1, h2⟩ := appendDuration_text (dst ++ b! "\"") d
  refine ⟨(if d < 0 then b! "-" else []) ++ t, ?_, ?_, ?_⟩
  · simp only [encodeDuration, h1, List.append_assoc]
  · by_cases h : d < 0
    · rw [if_pos h]
      rw [Int64.lt_iff_toInt_lt, Int64.toInt_zero] at h
      obtain ⟨r1, c, cs, rfl, _⟩ := durText_read h2 (t.length + 3) (by omega)
      -- two bytes suffice for one component; give the reader its own fuel
      have hl : ∀ k, 3 ≤ k → readComps k (c :: cs) = some d.toInt.natAbs :=
        fun k hk => (durText_read h2 k hk).1
      have hlen := durText_len2 h2
      have e : readDuration (b! "-" ++ (c :: cs)) =
          (readComps ((c :: cs).length + 1) (c :: cs)).map (fun n : Nat => -(n : Int)) := by
        simp [readDuration]
      rw [e]
      rw [hl _ (by simp only [List.length_cons] at *; omega)]
      simp only [Option.map_some, Option.some.injEq]; omega
    · rw [if_neg h, List.nil_append]
      rw [Int64.lt_iff_toInt_lt, Int64.toInt_zero] at h
      obtain ⟨_, c, cs, rfl, hc⟩ := durText_read h2 (t.length + 3) (by omega)
      have hm : ¬ c = c! '-' := by
        rintro rfl
        exact absurd hc (by decide)
      have hlen := durText_len2 h2
      have e : readDuration (c :: cs) =
          (readComps ((c :: cs).length + 1) (c :: cs)).map (fun n : Nat => (n : Int)) := by
        simp [readDuration, hm]
      rw [e]
      rw [(durText_read h2 _ (by simp only [List.length_cons] at *; omega)).1]
      simp only [Option.map_some, Option.some.injEq]; omega
  · apply unescape_plain
    intro c hc
    rcases List.mem_append.1 hc with hc | hc
    · split at hc
      · simp at hc; subst hc; decide
      · simp at hc
    · exact durText_plain h2 c hc

/-- **C12.** The text has the documented canonical form: leading zero units are
omitted, minutes and seconds stay below 60, fractions have no trailing zero, and
sub-second durations use the largest small unit with a non-zero leading number. -/
theorem C12_canonical (dst : Bytes) (d : Int64) :
    ∃ t, appendDuration dst d = some (dst ++ ((if d < 0 then b! "-" else []) ++ t)) ∧
      DurText d.toInt.natAbs t := appendDuration_text dst d

theorem toInt_div_pos (d k : Int64) (hk : 0 < k.toInt) : (d / k).toInt = d.toInt.tdiv k.toInt := by
  rw [Int64.toInt_div]
  have h1 := Int64.toInt_lt d
  have h2 := Int64.le_toInt d
  have h3 := Int.natAbs_tdiv_le_natAbs d.toInt k.toInt
  apply Int.bmod_eq_of_le
  · have : -(2:Int) ^ 63 ≤ d.toInt.tdiv k.toInt := by omega
    simpa using this
  · by_cases h : d.toInt < 0
    · have : d.toInt.tdiv k.toInt ≤ 0 := by
        have := Int.tdiv_nonneg (a := -d.toInt) (b := k.toInt) (by omega) (by omega)
        rw [Int.neg_tdiv] at this; omega
      simp; omega
    · simp; omega

/-- **C13.** The integer formats give the duration divided by 1, 1000, 1000000 and
truncated toward zero, as a canonical decimal literal. -/
theorem C13_numeric (fmt : FloatFmt) (df : DurFloat) (d : Int64) (dst : Bytes) :
    (∃ out, encodeDuration fmt df d dst .nanoseconds = .ok (dst ++ out) ∧
      IntLiteral out d.toInt) ∧
    (∃ out, encodeDuration fmt df d dst .microseconds = .ok (dst ++ out) ∧
      IntLiteral out (d.toInt.tdiv 1000)) ∧
    (∃ out, encodeDuration fmt df d dst .milliseconds = .ok (dst ++ out) ∧
      IntLiteral out (d.toInt.tdiv 1000000)) := by
  refine ⟨?_, ?_, ?_⟩
  · obtain ⟨out, h1, h2⟩ := appendInt_lit dst d
    exact ⟨out, by simp only [encodeDuration, h1], h2⟩
  · obtain ⟨out, h1, h2⟩ := appendInt_lit dst (d / 1000)
    refine ⟨out, by simp only [encodeDuration, h1], ?_⟩
    rwa [toInt_div_pos d 1000 (by decide)] at h2
  · obtain ⟨out, h1, h2⟩ := appendInt_lit dst (d / 1000000)
    refine ⟨out, by simp only [encodeDuration, h1], ?_⟩
    rwa [toInt_div_pos d 1000000 (by decide)] at h2

/-! Non-vacuity and extremes. -/
example : appendDuration [] Int64.minValue = some (b! "-2562047h47m16.854775808s") := by
  decide +kernel
example : appendDuration (b! "x") 1500 = some (b! "x1.5µs") := by decide +kernel
example : (-1999 : Int).tdiv 1000 = -1 ∧ appendInt [] ((-1999) / 1000) = b! "-1" := by decide +kernel

end Jettison.Props
