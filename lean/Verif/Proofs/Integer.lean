import Verif.Proofs.Number
import Verif.Model.Integer

/-! # Decimal numerals -/

namespace Jettison.Proofs
open Jettison.Spec Jettison.Model

theorem digit_byte {n : Nat} (h : n < 10) : (UInt8.ofNat (48 + n)).toNat = 48 + n := by
  simp [UInt8.toNat_ofNat']; omega

theorem isDigit_digit {n : Nat} (h : n < 10) : IsDigit (UInt8.ofNat (48 + n)) := by
  have := digit_byte h
  constructor <;> (rw [UInt8.le_iff_toNat_le, this]; simp; try omega)

theorem isDigit19_digit {n : Nat} (h : n < 10) (h0 : n ≠ 0) : IsDigit19 (UInt8.ofNat (48 + n)) := by
  have := digit_byte h
  constructor <;> (rw [UInt8.le_iff_toNat_le, this]; simp; try omega)

theorem digitsVal_append (a : Bytes) (c : UInt8) :
    digitsVal (a ++ [c]) = 10 * digitsVal a + (c.toNat - 48) := by
  simp [digitsVal, List.foldl_append]

theorem fmtNat_digits (n : Nat) : ∀ c ∈ fmtNat n, IsDigit c := by
  induction n using Nat.strongRecOn with
  | ind n ih =>
    rw [fmtNat_eq]
    split
    · rename_i h
      intro c hc
      rw [List.mem_singleton.1 hc]; exact isDigit_digit h
    · rename_i h
      intro c hc
      rcases List.mem_append.1 hc with hc | hc
      · exact ih (n / 10) (by omega) c hc
      · rw [List.mem_singleton.1 hc]; exact isDigit_digit (by omega)

theorem fmtNat_val (n : Nat) : digitsVal (fmtNat n) = n := by
  induction n using Nat.strongRecOn with
  | ind n ih =>
    rw [fmtNat_eq]
    split
    · rename_i h
      simp only [digitsVal, List.foldl_cons, List.foldl_nil, digit_byte h]; omega
    · rename_i h
      rw [digitsVal_append, ih (n / 10) (by omega), digit_byte (by omega)]; omega

theorem fmtNat_ne_nil (n : Nat) : fmtNat n ≠ [] := by
  rw [fmtNat_eq]; split <;> simp

theorem fmtNat_pos_head (n : Nat) (h0 : n ≠ 0) :
    ∃ d ds, fmtNat n = d :: ds ∧ IsDigit19 d ∧ ∀ c ∈ ds, IsDigit c := by
  induction n using Nat.strongRecOn with
  | ind n ih =>
    rw [fmtNat_eq]
    split
    · rename_i h
      exact ⟨_, [], rfl, isDigit19_digit h h0, by simp⟩
    · rename_i h
      obtain ⟨d, ds, h1, h2, h3⟩ := ih (n / 10) (by omega) (by omega)
      refine ⟨d, ds ++ [UInt8.ofNat (48 + n % 10)], by rw [h1]; rfl, h2, ?_⟩
      intro c hc
      rcases List.mem_append.1 hc with hc | hc
      · exact h3 c hc
      · rw [List.mem_singleton.1 hc]; exact isDigit_digit (by omega)

theorem fmtNat_intPart (n : Nat) : IntPart (fmtNat n) := by
  by_cases h : n = 0
  · subst h; left; decide
  · obtain ⟨d, ds, h1, h2, h3⟩ := fmtNat_pos_head n h
    exact Or.inr ⟨d, ds, h1, h2, h3⟩

theorem appendInt_lit (dst : Bytes) (i : Int64) :
    ∃ out, appendInt dst i = dst ++ out ∧ IntLiteral out i.toInt := by
  unfold appendInt
  split
  · rename_i h
    rw [Int64.lt_iff_toInt_lt] at h
    refine ⟨_, rfl, ?_⟩
    have h1 : ((-i.toUInt64).toNat : Int) = -i.toInt := by
      have h2 := Int64.toInt_lt i
      have h3 := Int64.le_toInt i
      have h4 : i.toInt = (i.toUInt64.toNat : Int).bmod (2^64) := by
        rw [← Int64.toNat_toBitVec, ← BitVec.toInt_eq_toNat_bmod]; rfl
      have h5 : i.toUInt64.toNat < 2^64 := UInt64.toNat_lt _
      simp only [UInt64.toNat_neg, UInt64.size]
      simp only [Int64.toInt_zero] at h
      simp only [Int.bmod_def] at h4
      split at h4 <;> omega
    have h2 := IntLiteral.neg (fmtNat (-i.toUInt64).toNat) (fmtNat_intPart _)
      (by rw [fmtNat_val]; simp only [Int64.toInt_zero] at h; omega)
    rw [fmtNat_val] at h2
    rw [h1, Int.neg_neg] at h2
    exact h2
  · rename_i h
    rw [Int64.lt_iff_toInt_lt] at h
    refine ⟨_, rfl, ?_⟩
    have h2 := IntLiteral.nonneg (fmtNat (i.toUInt64).toNat) (fmtNat_intPart _)
    rw [fmtNat_val] at h2
    have h1 : ((i.toUInt64).toNat : Int) = i.toInt := by
      have h2 := Int64.toInt_lt i
      have h4 : i.toInt = (i.toUInt64.toNat : Int).bmod (2^64) := by
        rw [← Int64.toNat_toBitVec, ← BitVec.toInt_eq_toNat_bmod]; rfl
      have h5 : i.toUInt64.toNat < 2^64 := UInt64.toNat_lt _
      simp only [Int64.toInt_zero] at h
      simp only [Int.bmod_def] at h4
      split at h4 <;> omega
    rwa [h1] at h2

theorem appendUint_lit (dst : Bytes) (u : UInt64) :
    ∃ out, appendUint dst u = dst ++ out ∧ IntLiteral out (u.toNat : Int) := by
  refine ⟨_, rfl, ?_⟩
  have h2 := IntLiteral.nonneg (fmtNat u.toNat) (fmtNat_intPart _)
  rwa [fmtNat_val] at h2

/-- The literal is determined by the integer and conversely. -/
theorem intLiteral_isNumber {s : Bytes} {v : Int} (h : IntLiteral s v) : IsNumber s := by
  cases h with
  | nonneg s hi => exact ⟨[], s, [], [], by simp, Or.inl rfl, hi, Or.inl rfl, Or.inl rfl⟩
  | neg s hi _ => exact ⟨b! "-", s, [], [], by simp, Or.inr rfl, hi, Or.inl rfl, Or.inl rfl⟩

theorem intLiteral_functional {s : Bytes} {v w : Int} (h : IntLiteral s v) (h' : IntLiteral s w) :
    v = w := by
  cases h with
  | nonneg s hi =>
    cases h' with
    | nonneg => rfl
    | neg t ht _ =>
      rcases hi with hi | ⟨d, ds, hi, hd, _⟩
      · simp at hi
      · simp only [List.cons.injEq] at hi
        rw [← hi.1] at hd
        exact absurd hd (by decide)
  | neg t ht _ =>
    cases h' with
    | nonneg _ hi =>
      rcases hi with hi | ⟨d, ds, hi, hd, _⟩
      · simp at hi
      · simp only [List.cons.injEq] at hi
        rw [← hi.1] at hd
        exact absurd hd (by decide)
    | neg => rfl

end Jettison.Proofs
