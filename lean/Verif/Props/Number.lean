import Verif.Proofs.Number

/-!
# Property C07: json.Number
-/

namespace Jettison.Props
open Jettison.Spec Jettison.Model Jettison.Proofs

/-- **C07.** The validation accepts exactly the RFC 8259 number literals. -/
theorem C07_valid_iff_grammar (s : Bytes) : isValidNumber s = true ↔ IsNumber s := by
  constructor
  · intro h
    unfold isValidNumber at h
    split at h
    · simp at h
    · split at h
      · simp at h
      · rename_i s1 h1
        split at h
        · simp at h
        · rename_i s2 h2
          split at h
          · simp at h
          · rename_i s3 h3
            have h4 : s3 = [] := by simpa using h
            subst h4
            obtain ⟨i, hi1, hi2⟩ := stripInt_sound h2
            obtain ⟨f, hf1, hf2⟩ := stripFrac_sound s2
            have he := stripExp_sound h3
            have hsg : ∃ sg, s = sg ++ s1 ∧ (sg = [] ∨ sg = b! "-") := by
              unfold stripMinus at h1
              split at h1
              · split at h1
                · rename_i hc
                  split at h1
                  · simp at h1
                  · simp only [Option.some.injEq] at h1
                    subst h1; subst hc
                    exact ⟨b! "-", rfl, Or.inr rfl⟩
                · simp only [Option.some.injEq] at h1
                  subst h1; exact ⟨[], rfl, Or.inl rfl⟩
              · simp only [Option.some.injEq] at h1
                subst h1; exact ⟨[], rfl, Or.inl rfl⟩
            obtain ⟨sg, hs, hsg⟩ := hsg
            refine ⟨sg, i, f, stripFrac s2, ?_, hsg, hi2, hf2, he⟩
            rw [← hf1, ← hi1, ← hs]
  · rintro ⟨sg, i, f, e, rfl, hsg, hi, hf, he⟩
    have hne : i ++ (f ++ e) ≠ [] := by simp [int_ne_nil hi]
    have hm : stripMinus (sg ++ (i ++ (f ++ e))) = some (i ++ (f ++ e)) := by
      rcases hsg with rfl | rfl
      · simpa using int_head_ne_minus (r := f ++ e) hi
      · simp [stripMinus, int_ne_nil hi]
    have hne' : sg ++ (i ++ (f ++ e)) ≠ [] := by simp [int_ne_nil hi]
    simp only [isValidNumber, hm, stripInt_complete hi (frac_nodigit hf he),
      stripFrac_complete hf he, stripExp_complete he, if_neg hne', decide_true]

/-- **C07.** With validation on, a `json.Number` either appends one RFC 8259 number
literal, namely its own text (`0` for the empty string), or fails; it fails exactly
for the non-empty texts outside the grammar. -/
theorem C07_encodeNumber (num dst : Bytes) :
    (encodeNumber num dst false = .ok (dst ++ (if num = [] then b! "0" else num)) ∧
      IsNumber (if num = [] then b! "0" else num)) ∨
    (encodeNumber num dst false = .error () ∧ num ≠ [] ∧ ¬ IsNumber num) := by
  unfold encodeNumber
  by_cases hn : num = []
  · left
    subst hn
    have : isValidNumber (b! "0") = true := by decide
    simp [this, ← C07_valid_iff_grammar]
  · by_cases hv : isValidNumber num = true
    · left
      simp [hn, hv, ← C07_valid_iff_grammar]
    · right
      simp [hn, hv, ← C07_valid_iff_grammar]

/-- **C07.** With `NoNumberValidation` the text is copied whatever it is. -/
theorem C07_no_validation (num dst : Bytes) (h : num ≠ []) :
    encodeNumber num dst true = .ok (dst ++ num) := by
  simp [encodeNumber, h]

/-! Non-vacuity: both outcomes occur. -/
example : encodeNumber (b! "-12.50E+07") (b! "[") false = .ok (b! "[-12.50E+07") := by rfl
example : encodeNumber (b! "01") [] false = .error () := by rfl
example : IsNumber (b! "-12.50E+07") := (C07_valid_iff_grammar _).1 (by decide)
example : ¬ IsNumber (b! "1.e5") := fun h => absurd ((C07_valid_iff_grammar _).2 h) (by decide)

end Jettison.Props
