import Verif.Proofs.Options

/-! # Flags as bits -/

namespace Jettison.Proofs
open Jettison.Model
/-- The number of the bit of a flag. -/
def flagBit : Flag → Nat
  | .unixTime => 0 | .unsortedMap => 1 | .rawByteSlice => 2 | .byteArrayAsString => 3 | .nilMapEmpty => 4 | .nilSliceEmpty => 5
  | .noStringEscaping => 6 | .noHTMLEscaping => 7 | .noUTF8Coercion => 8 | .noCompact => 9 | .noNumberValidation => 10

theorem mask_toNat (f : Flag) : f.mask.toNat = 2 ^ flagBit f := by cases f <;> rfl

theorem and_pow_zero (x i : Nat) : x &&& 2 ^ i = 0 ↔ x.testBit i = false := by
  constructor
  · intro h
    have := congrArg (·.testBit i) h
    simpa [Nat.testBit_and, Nat.testBit_two_pow] using this
  · intro h
    apply Nat.eq_of_testBit_eq
    intro j
    rw [Nat.testBit_and, Nat.testBit_two_pow, Nat.zero_testBit]
    by_cases hj : i = j
    · subst hj; simp [h]
    · simp [hj]

theorem bmHas_testBit (b : UInt64) (f : Flag) : bmHas b f = b.toNat.testBit (flagBit f) := by
  have h : (b &&& f.mask ≠ 0) ↔ b.toNat.testBit (flagBit f) = true := by
    rw [ne_eq, ← UInt64.toNat_inj, UInt64.toNat_and, mask_toNat]
    have := and_pow_zero b.toNat (flagBit f)
    cases h : b.toNat.testBit (flagBit f) <;> simp_all
  unfold bmHas
  cases hb : b.toNat.testBit (flagBit f) <;> simp_all

theorem apply_flags_lt : ∀ (l : List (Option Opt)) (o : EncOpts), o.flags.toNat < 2 ^ 11 → (o.apply l).flags.toNat < 2 ^ 11
  | [], o, h => h
  | none :: l, o, h => apply_flags_lt l o h
  | some x :: l, o, h => by
    refine apply_flags_lt l _ ?_
    cases x with
    | flag f =>
      simp only [Opt.run, bmSet, UInt64.toNat_or]
      refine Nat.or_lt_two_pow h ?_
      rw [mask_toNat]; cases f <;> decide
    | _ => exact h

theorem flags_ext {a b : UInt64} (ha : a.toNat < 2 ^ 11) (hb : b.toNat < 2 ^ 11) (h : ∀ f, bmHas a f = bmHas b f) : a = b := by
  apply UInt64.toNat_inj.mp
  apply Nat.eq_of_testBit_eq
  intro i
  by_cases hi : i < 11
  · have : ∃ f, flagBit f = i := by
      have : i = 0 ∨ i = 1 ∨ i = 2 ∨ i = 3 ∨ i = 4 ∨ i = 5 ∨ i = 6 ∨ i = 7 ∨ i = 8 ∨ i = 9 ∨ i = 10 := by omega
      rcases this with rfl | rfl | rfl | rfl | rfl | rfl | rfl | rfl | rfl | rfl | rfl
      · exact ⟨.unixTime, rfl⟩
      · exact ⟨.unsortedMap, rfl⟩
      · exact ⟨.rawByteSlice, rfl⟩
      · exact ⟨.byteArrayAsString, rfl⟩
      · exact ⟨.nilMapEmpty, rfl⟩
      · exact ⟨.nilSliceEmpty, rfl⟩
      · exact ⟨.noStringEscaping, rfl⟩
      · exact ⟨.noHTMLEscaping, rfl⟩
      · exact ⟨.noUTF8Coercion, rfl⟩
      · exact ⟨.noCompact, rfl⟩
      · exact ⟨.noNumberValidation, rfl⟩
    obtain ⟨f, rfl⟩ := this
    rw [← bmHas_testBit, ← bmHas_testBit, h f]
  · have h2 : 2 ^ 11 ≤ 2 ^ i := Nat.pow_le_pow_right (by omega) (by omega)
    rw [Nat.testBit_lt_two_pow (by omega), Nat.testBit_lt_two_pow (by omega)]

end Jettison.Proofs
