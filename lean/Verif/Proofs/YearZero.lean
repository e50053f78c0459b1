import Verif.Proofs.Time
import Verif.Spec.Times

/-!
# Times before 0000-12-31
-/

namespace Jettison.Proofs
open Jettison.Model Jettison.Spec

theorem byteDigit_neg (k : Nat) (h : k < 10) : byteDigit (-(k : Int)) = UInt8.ofNat (48 - k) := by
  revert h k; decide

theorem rdnToYmd_year_zero (k : Nat) (hk : k ≤ 365) : ∃ y m d, rdnToYmd (toU32 (-(k : Int))) = some (y, m, d) ∧
    (k ≤ 305 → y = 0 ∧ ValidDate 0 m.toNat d.toNat ∧ dayNumber 0 m.toNat d.toNat + k = 365) ∧ (306 ≤ k → y = 2 ∧ ValidDate 2 m.toNat d.toNat ∧ dayNumber 2 m.toNat d.toNat + k = dayNumber 2 6 1 + 365) := by
  have : ∀ k : Fin 366, (rdnToYmd (toU32 (-(k.val : Int)))).any (fun x =>
      decide ((k.val ≤ 305 → x.1 = 0 ∧ ValidDate 0 x.2.1.toNat x.2.2.toNat ∧ dayNumber 0 x.2.1.toNat x.2.2.toNat + k.val = 365) ∧ (306 ≤ k.val → x.1 = 2 ∧ ValidDate 2 x.2.1.toNat x.2.2.toNat ∧ dayNumber 2 x.2.1.toNat x.2.2.toNat + k.val = dayNumber 2 6 1 + 365))) = true := by
    decide +kernel
  have := this ⟨k, by omega⟩
  rw [Option.any_eq_true] at this
  obtain ⟨⟨y, m, d⟩, e, h⟩ := this
  exact ⟨y, m, d, e, of_decide_eq_true h⟩

/-- The date and clock reading before 0000-12-31, as they are written. -/
def zeroText (y m d n : Nat) : Bytes :=
  padDigits 4 y ++ b! "-" ++ padDigits 2 m ++ b! "-" ++ padDigits 2 d ++ b! "T" ++
    [UInt8.ofNat (48 - n / 10 / 6 / 10 / 6 / 10 % 10), UInt8.ofNat (48 - n / 10 / 6 / 10 / 6 % 10)] ++ b! ":" ++
    [UInt8.ofNat (48 - n / 10 / 6 / 10 % 6), UInt8.ofNat (48 - n / 10 / 6 % 10)] ++ b! ":" ++ [UInt8.ofNat (48 - n / 10 % 6), UInt8.ofNat (48 - n % 10)]

theorem neg_tdiv (n k : Nat) : (-(n : Int)).tdiv k = -((n / k : Nat) : Int) := by
  rw [Int.neg_tdiv]; rfl

theorem neg_tmod (n k : Nat) : (-(n : Int)).tmod k = -((n % k : Nat) : Int) := by
  rw [Int.neg_tmod]; rfl

theorem putDateTime_zero (t : GoTime) (n : Nat) (y m d : UInt16) (hS : t.unix + t.offset + 62135683200 = -(n : Int))
    (h : rdnToYmd (toU32 (-((n / 86400 : Nat) : Int))) = some (y, m, d)) :
    putDateTime t = some (c! '"' :: (zeroText y.toNat m.toNat d.toNat (n % 86400) ++ List.replicate 17 0)) := by
  have e : putDateTime t = (do
      let (y, m, d) ← rdnToYmd (toU32 ((-(n : Int)).tdiv 86400))
      let s := (-(n : Int)).tmod 86400
      some ([c! '"', UInt8.ofNat (y.toNat / 10 / 10 / 10 % 10) + 48, UInt8.ofNat (y.toNat / 10 / 10 % 10) + 48,
        UInt8.ofNat (y.toNat / 10 % 10) + 48, UInt8.ofNat (y.toNat % 10) + 48, c! '-',
        UInt8.ofNat (m.toNat / 10 % 10) + 48, UInt8.ofNat (m.toNat % 10) + 48, c! '-',
        UInt8.ofNat (d.toNat / 10 % 10) + 48, UInt8.ofNat (d.toNat % 10) + 48, c! 'T',
        byteDigit ((((((s.tdiv 10).tdiv 6).tdiv 10).tdiv 6).tdiv 10).tmod 10),
        byteDigit (((((s.tdiv 10).tdiv 6).tdiv 10).tdiv 6).tmod 10), c! ':',
        byteDigit ((((s.tdiv 10).tdiv 6).tdiv 10).tmod 6),
        byteDigit (((s.tdiv 10).tdiv 6).tmod 10), c! ':',
        byteDigit ((s.tdiv 10).tmod 6),
        byteDigit (s.tmod 10)] ++ List.replicate 17 0)) := by
    unfold putDateTime
    rw [hS]
    rfl
  have d10 : ∀ n : Nat, (-(n : Int)).tdiv 10 = -((n / 10 : Nat) : Int) := fun n => neg_tdiv n 10
  have d6 : ∀ n : Nat, (-(n : Int)).tdiv 6 = -((n / 6 : Nat) : Int) := fun n => neg_tdiv n 6
  have m10 : ∀ n : Nat, (-(n : Int)).tmod 10 = -((n % 10 : Nat) : Int) := fun n => neg_tmod n 10
  have m6 : ∀ n : Nat, (-(n : Int)).tmod 6 = -((n % 6 : Nat) : Int) := fun n => neg_tmod n 6
  have d8 : (-(n : Int)).tdiv 86400 = -((n / 86400 : Nat) : Int) := neg_tdiv n 86400
  have m8 : (-(n : Int)).tmod 86400 = -((n % 86400 : Nat) : Int) := neg_tmod n 86400
  rw [e, d8, h]
  simp only [Option.bind_eq_bind, Option.bind_some, m8, d10, d6, m10, m6]
  rw [byteDigit_neg _ (by omega), byteDigit_neg _ (by omega), byteDigit_neg _ (by omega),
    byteDigit_neg _ (by omega), byteDigit_neg _ (by omega), byteDigit_neg _ (by omega)]
  simp only [ofNat_add48]
  rfl

theorem zeroText_length (y m d n : Nat) : (zeroText y m d n).length = 19 := rfl

/-- Before 0000-12-31 the text is a date and clock reading only at midnight. -/
theorem zeroText_midnight {y m d n y' mo' d' h' mi' s' : Nat} (hn : n < 86400) (h : zeroText y m d n = dateTimeText y' mo' d' h' mi' s') :
    n = 0 ∧ y % 10000 = y' % 10000 := by
  have ofn : ∀ a b : Nat, a < 256 → b < 256 → UInt8.ofNat a = UInt8.ofNat b → a = b := by
    intro a b ha hb h
    have := congrArg UInt8.toNat h
    rw [UInt8.toNat_ofNat', UInt8.toNat_ofNat'] at this
    omega
  simp only [zeroText, dateTimeText, padDigits, List.nil_append, List.cons_append, List.cons.injEq] at h
  obtain ⟨a1, a2, a3, a4, -, -, -, -, -, -, -, b1, b2, -, b3, b4, -, b5, b6, -⟩ := h
  have := ofn _ _ (by omega) (by omega) a1
  have := ofn _ _ (by omega) (by omega) a2
  have := ofn _ _ (by omega) (by omega) a3
  have := ofn _ _ (by omega) (by omega) a4
  have := ofn _ _ (by omega) (by omega) b1
  have := ofn _ _ (by omega) (by omega) b2
  have := ofn _ _ (by omega) (by omega) b3
  have := ofn _ _ (by omega) (by omega) b4
  have := ofn _ _ (by omega) (by omega) b5
  have := ofn _ _ (by omega) (by omega) b6
  omega

/-- The clock reading is that of the time to the next midnight, its digits below `'0'`. -/
theorem zeroText_minus {y m d n : Nat} (hn : n < 86400) : zeroText y m d n =
    padDigits 4 y ++ b! "-" ++ padDigits 2 m ++ b! "-" ++ padDigits 2 d ++ b! "T" ++ minusDigits 2 (n / 3600) ++ b! ":" ++ minusDigits 2 (n / 60 % 60) ++ b! ":" ++
      minusDigits 2 (n % 60) := by
  have a1 : n / 10 / 6 / 10 / 6 / 10 % 10 = n / 3600 / 10 % 10 := by omega
  have a2 : n / 10 / 6 / 10 / 6 % 10 = n / 3600 % 10 := by omega
  have a3 : n / 10 / 6 / 10 % 6 = n / 60 % 60 / 10 % 10 := by omega
  have a4 : n / 10 / 6 % 10 = n / 60 % 60 % 10 := by omega
  have a5 : n / 10 % 6 = n % 60 / 10 % 10 := by omega
  have a6 : n % 10 = n % 60 % 10 := by omega
  rw [zeroText, a1, a2, a3, a4, a5, a6]
  rfl

/-- At midnight the clock is right. -/
theorem zeroText_zero (y m d : Nat) : zeroText y m d 0 = dateTimeText y m d 0 0 0 := rfl

end Jettison.Proofs

