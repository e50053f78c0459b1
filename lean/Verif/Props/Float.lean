import Verif.Proofs.Float

/-! # Property C09: floats -/

namespace Jettison.Props
open Jettison.Spec Jettison.Model Jettison.Proofs

/-- What the Go documentation of `strconv.AppendFloat` with precision -1 says about
the shape of the text (not its value): `-ddd.ddd` without redundant leading zeros,
and `-d.ddde±dd` with at least two exponent digits. -/
structure FormatContract (fmt : FloatFmt) : Prop where
  plain : ∀ w bits, IsFinite w bits →
    ∃ sg i f, fmt w bits false = sg ++ (i ++ f) ∧ (sg = [] ∨ sg = b! "-") ∧ IntPart i ∧ FracPart f
  exp : ∀ w bits, IsFinite w bits →
    ∃ sg i f esg ds, fmt w bits true = sg ++ (i ++ (f ++ (c! 'e' :: (esg ++ ds)))) ∧
      (sg = [] ∨ sg = b! "-") ∧ IntPart i ∧ FracPart f ∧ (esg = b! "+" ∨ esg = b! "-") ∧
      2 ≤ ds.length ∧ ∀ c ∈ ds, IsDigit c

/-- **C09.** NaN and the infinities are refused (the caller's buffer is returned as it
was), finite numbers are not. -/
theorem C09_nonfinite (fmt : FloatFmt) (dst : Bytes) (w : FWidth) (bits : Nat) :
    appendFloat fmt dst w bits = .error () ↔ ¬ IsFinite w bits := by
  rw [← finite_iff]
  unfold appendFloat
  cases isNaNOrInf w bits <;> simp

theorem digitsVal_zero_cons (d : UInt8) : digitsVal [c! '0', d] = digitsVal [d] := by
  simp [digitsVal]

/-- **C09.** A finite float appends an RFC 8259 number that denotes exactly the decimal
of the text `strconv` produced for the chosen format, and a single-digit negative
exponent is not zero-padded. -/
theorem C09_finite (fmt : FloatFmt) (hf : FormatContract fmt) (dst : Bytes) (w : FWidth)
    (bits : Nat) (h : IsFinite w bits) :
    ∃ out m e, appendFloat fmt dst w bits = .ok (dst ++ out) ∧
      NumDenotes (fmt w bits (useExp w bits)) m e ∧ NumDenotes out m e ∧
      ¬ ∃ p d, out = p ++ b! "e-0" ++ [d] := by
  unfold appendFloat
  rw [(finite_iff w bits).2 h]
  cases hu : useExp w bits with
  | false =>
    obtain ⟨sg, i, f, h1, h2, h3, h4⟩ := hf.plain w bits h
    have hd : NumDenotes (fmt w bits false) _ _ := ⟨sg, i, f, h2, h3, h4, rfl, Or.inl ⟨h1, rfl⟩⟩
    refine ⟨fmt w bits false, _, _, by simp, hd, hd, ?_⟩
    rintro ⟨p, d, he⟩
    rw [h1] at he
    have hmem : c! 'e' ∈ sg ++ (i ++ f) := by rw [he]; simp
    have nodig : ¬ IsDigit (c! 'e') := by decide
    rcases List.mem_append.1 hmem with hm | hm
    · rcases h2 with rfl | rfl <;> simp at hm
    · rcases List.mem_append.1 hm with hm | hm
      · rcases h3 with rfl | ⟨d, ds, rfl, hd, hds⟩
        · simp at hm
        · rcases List.mem_cons.1 hm with rfl | hm
          · exact absurd hd (by decide)
          · exact nodig (hds _ hm)
      · rcases h4 with rfl | ⟨ds, rfl, _, hds⟩
        · simp at hm
        · rcases List.mem_cons.1 hm with hm | hm
          · simp at hm
          · exact nodig (hds _ hm)
  | true =>
    obtain ⟨sg, i, f, esg, ds, h1, h2, h3, h4, h5, h6, h7⟩ := hf.exp w bits h
    have hds : Digits1 ds := ⟨by rintro rfl; simp at h6, h7⟩
    have hsg : esg = [] ∨ esg = b! "+" ∨ esg = b! "-" := Or.inr h5
    have hd : NumDenotes (fmt w bits true) _ _ :=
      ⟨sg, i, f, h2, h3, h4, rfl, Or.inr ⟨c! 'e', esg, ds, Or.inl rfl, hsg, hds, h1, rfl⟩⟩
    have hre : dst ++ fmt w bits true =
        (dst ++ (sg ++ (i ++ f))) ++ (c! 'e' :: (esg ++ ds)) := by rw [h1]; simp
    rcases cleanExp_expForm (dst ++ (sg ++ (i ++ f))) esg ds h5 h7 h6 with
      ⟨d, e1, e2, e3⟩ | ⟨e1, e2⟩
    · subst e1; subst e2
      refine ⟨sg ++ (i ++ (f ++ (c! 'e' :: (b! "-" ++ [d])))), _, _, ?_, hd, ?_, ?_⟩
      · simp only [Bool.false_eq_true, if_false, if_true, hre, e3]
        simp
      · refine ⟨sg, i, f, h2, h3, h4, rfl, Or.inr ⟨c! 'e', b! "-", [d], Or.inl rfl, hsg,
          ⟨by simp, fun c hc => h7 c (by simp at hc ⊢; exact Or.inr hc)⟩, rfl, ?_⟩⟩
        simp only [signedVal, digitsVal_zero_cons]
      · rintro ⟨p, x, he⟩
        have he' : (sg ++ (i ++ f) ++ b! "e") ++ [c! '-', d] = (p ++ b! "e-") ++ [c! '0', x] := by
          simpa using he
        have := (List.append_inj' he' rfl).2
        simp at this
    · refine ⟨fmt w bits true, _, _, ?_, hd, hd, ?_⟩
      · simp only [Bool.false_eq_true, if_false, if_true]
        rw [hre, e1]
      · rintro ⟨p, x, he⟩
        exact e2 ⟨dst ++ p, x, by rw [← hre, he]; simp⟩

/-- **C09.** The exponent form is used exactly for non-zero values below the float
nearest 10^-6 or not below the float nearest 10^21 (`C09_thresholds`). -/
theorem C09_exponent_form (w : FWidth) (bits : Nat) :
    useExp w bits = true ↔ finiteUnits w bits ≠ 0 ∧
      (finiteUnits w bits < finiteUnits w (bits1em6 w) ∨
       finiteUnits w (bits1e21 w) ≤ finiteUnits w bits) := by
  have hb : fabs w bits < 2 ^ (w.mant + w.exp) := Nat.mod_lt _ (Nat.two_pow_pos _)
  have h1 : bits1em6 w < 2 ^ (w.mant + w.exp) := by cases w <;> decide
  have h2 : bits1e21 w < 2 ^ (w.mant + w.exp) := by cases w <;> decide
  have h0 : finiteUnits w bits ≠ 0 ↔ fabs w bits ≠ 0 := by
    rw [← units_fabs]
    constructor
    · intro h h'; rw [h', units_zero] at h; exact h rfl
    · intro h
      have := units_lt (w := w) (a := 0) hb (by omega)
      omega
  rw [h0, ← units_fabs w bits, units_lt_iff hb h1, ← Nat.not_lt, units_lt_iff hb h2]
  simp [useExp]

/-- Distance of `n/d` (in least units, scaled by `d`) to a float. -/
def dist (w : FWidth) (n d bits : Nat) : Nat :=
  (finiteUnits w bits * d - n * w.one) + (n * w.one - finiteUnits w bits * d)

/-- **C09.** The two thresholds are the floats nearest to 10^-6 and 10^21: no float of
the width is nearer. -/
theorem C09_thresholds (w : FWidth) (bits : Nat) :
    dist w 1 (10 ^ 6) (bits1em6 w) ≤ dist w 1 (10 ^ 6) bits ∧
    dist w (10 ^ 21) 1 (bits1e21 w) ≤ dist w (10 ^ 21) 1 bits := by
  have key : ∀ n d c : Nat, c + 1 < 2 ^ (w.mant + w.exp) → 0 < c →
      dist w n d c ≤ dist w n d (c - 1) → dist w n d c ≤ dist w n d (c + 1) →
      n * w.one ≤ finiteUnits w (c + 1) * d → finiteUnits w (c - 1) * d ≤ n * w.one →
      dist w n d c ≤ dist w n d bits := by
    intro n d c hc hc0 h1 h2 h3 h4
    have hu := units_fabs w bits
    have hb : fabs w bits < 2 ^ (w.mant + w.exp) := Nat.mod_lt _ (Nat.two_pow_pos _)
    have hd : dist w n d (fabs w bits) = dist w n d bits := by simp [dist, hu]
    rw [← hd]
    generalize fabs w bits = x at hb
    rcases Nat.lt_trichotomy x c with hx | rfl | hx
    · have := units_le (w := w) (a := x) (b := c - 1) (by omega) (by omega)
      have := Nat.mul_le_mul_right d this
      refine Nat.le_trans h1 ?_
      simp only [dist]; omega
    · exact Nat.le_refl _
    · have := units_le (w := w) (a := c + 1) (b := x) hb (by omega)
      have := Nat.mul_le_mul_right d this
      refine Nat.le_trans h2 ?_
      simp only [dist]; omega
  constructor
  · apply key <;> (cases w <;> decide +kernel)
  · apply key <;> (cases w <;> decide +kernel)

/-! Non-vacuity: a formatter meeting the contract, and texts of both shapes. -/

/-- A toy formatter meeting the contract. -/
def toyFmt : FloatFmt := fun _ _ e => if e then b! "1.5e-09" else b! "-10.25"

theorem toyFmt_contract : FormatContract toyFmt where
  plain _ _ _ := ⟨b! "-", b! "10", b! ".25", rfl, Or.inr rfl,
    Or.inr ⟨_, _, rfl, by decide, by decide⟩, Or.inr ⟨_, rfl, by decide, by decide⟩⟩
  exp _ _ _ := ⟨[], b! "1", b! ".5", b! "-", b! "09", rfl, Or.inl rfl,
    Or.inr ⟨_, _, rfl, by decide, by decide⟩, Or.inr ⟨_, rfl, by decide, by decide⟩, Or.inr rfl,
    by decide, by decide⟩

example : IsFinite .f64 0x3E112E0BE826D695 ∧
    appendFloat toyFmt (b! "[") .f64 0x3E112E0BE826D695 = .ok (b! "[1.5e-9") := by
  exact ⟨by decide +kernel, by rfl⟩
example : ¬ IsFinite .f32 0x7F800000 := by decide +kernel
example : useExp .f64 0x3FF0000000000000 = false ∧ useExp .f64 0x444b1ae4d6e2ef50 = true := by
  decide +kernel
/-- The f64 threshold at 10^21 is exact. -/
example : finiteUnits .f64 (bits1e21 .f64) = 10 ^ 21 * FWidth.one .f64 := by decide +kernel

end Jettison.Props
