import Verif.Proofs.Calendar
import Verif.Proofs.Integer
import Verif.Proofs.Duration

/-! # The RFC 3339 writer -/

namespace Jettison.Proofs
open Jettison.Spec Jettison.Model

theorem ofNat_add48 (n : Nat) : UInt8.ofNat n + 48 = UInt8.ofNat (48 + n) := by
  rw [Nat.add_comm, UInt8.ofNat_add]; rfl

theorem byteDigit_nat (k : Nat) (h : k < 10) : byteDigit (k : Int) = UInt8.ofNat (48 + k) := by
  unfold byteDigit
  rw [ofNat_add48]
  congr 2
  omega

theorem putDateTime_raw (t : GoTime) (S : Nat) (y m d : UInt16)
    (hS : t.unix + t.offset + 62135683200 = (S : Int))
    (h : rdnToYmd (toU32 ((S / 86400 : Nat) : Int)) = some (y, m, d)) :
    putDateTime t = some (c! '"' :: (dateTimeText y.toNat m.toNat d.toNat (S % 86400 / 3600)
      (S % 86400 / 60 % 60) (S % 86400 % 60) ++ List.replicate 17 0)) := by
  have e : putDateTime t = (do
      let (y, m, d) ← rdnToYmd (toU32 ((S / 86400 : Nat) : Int))
      some ([c! '"', UInt8.ofNat (y.toNat / 10 / 10 / 10 % 10) + 48, UInt8.ofNat (y.toNat / 10 / 10 % 10) + 48,
        UInt8.ofNat (y.toNat / 10 % 10) + 48, UInt8.ofNat (y.toNat % 10) + 48, c! '-',
        UInt8.ofNat (m.toNat / 10 % 10) + 48, UInt8.ofNat (m.toNat % 10) + 48, c! '-',
        UInt8.ofNat (d.toNat / 10 % 10) + 48, UInt8.ofNat (d.toNat % 10) + 48, c! 'T',
        byteDigit ((S % 86400 / 10 / 6 / 10 / 6 / 10 % 10 : Nat) : Int),
        byteDigit ((S % 86400 / 10 / 6 / 10 / 6 % 10 : Nat) : Int), c! ':',
        byteDigit ((S % 86400 / 10 / 6 / 10 % 6 : Nat) : Int),
        byteDigit ((S % 86400 / 10 / 6 % 10 : Nat) : Int), c! ':',
        byteDigit ((S % 86400 / 10 % 6 : Nat) : Int),
        byteDigit ((S % 86400 % 10 : Nat) : Int)] ++ List.replicate 17 0)) := by
    unfold putDateTime
    rw [hS]
    rfl
  rw [e, h]
  have e2 : ∀ a b e f g i : Nat, dateTimeText a b e f g i = [
      UInt8.ofNat (48 + a / 10 / 10 / 10 % 10), UInt8.ofNat (48 + a / 10 / 10 % 10),
      UInt8.ofNat (48 + a / 10 % 10), UInt8.ofNat (48 + a % 10), c! '-',
      UInt8.ofNat (48 + b / 10 % 10), UInt8.ofNat (48 + b % 10), c! '-',
      UInt8.ofNat (48 + e / 10 % 10), UInt8.ofNat (48 + e % 10), c! 'T',
      UInt8.ofNat (48 + f / 10 % 10), UInt8.ofNat (48 + f % 10), c! ':',
      UInt8.ofNat (48 + g / 10 % 10), UInt8.ofNat (48 + g % 10), c! ':',
      UInt8.ofNat (48 + i / 10 % 10), UInt8.ofNat (48 + i % 10)] := by
    intros; rfl
  rw [e2]
  simp only [ofNat_add48]
  rw [byteDigit_nat _ (by omega), byteDigit_nat _ (by omega), byteDigit_nat _ (by omega),
    byteDigit_nat _ (by omega), byteDigit_nat _ (by omega), byteDigit_nat _ (by omega)]
  have a1 : S % 86400 / 10 / 6 / 10 / 6 / 10 % 10 = S % 86400 / 3600 / 10 % 10 := by omega
  have a2 : S % 86400 / 10 / 6 / 10 / 6 % 10 = S % 86400 / 3600 % 10 := by omega
  have a3 : S % 86400 / 10 / 6 / 10 % 6 = S % 86400 / 60 % 60 / 10 % 10 := by omega
  have a4 : S % 86400 / 10 / 6 % 10 = S % 86400 / 60 % 60 % 10 := by omega
  have a5 : S % 86400 / 10 % 6 = S % 86400 % 60 / 10 % 10 := by omega
  have a6 : S % 86400 % 10 = S % 86400 % 60 % 10 := by omega
  rw [a1, a2, a3, a4, a5, a6]
  rfl

/-- Date and time of day are right from 0000-12-31 on. -/
theorem putDateTime_spec (t : GoTime) (hlo : 365 * 86400 ≤ t.unix + t.offset + epochSeconds)
    (hhi : t.unix + t.offset + epochSeconds < 3652425 * 86400) :
    ∃ y mo d h mi s, CivilTime (t.unix + t.offset) y mo d h mi s ∧ y ≤ 9999 ∧
      putDateTime t = some (c! '"' :: (dateTimeText y mo d h mi s ++ List.replicate 17 0)) := by
  unfold epochSeconds at *
  obtain ⟨S, hS⟩ : ∃ S : Nat, t.unix + t.offset + 62135683200 = (S : Int) :=
    ⟨(t.unix + t.offset + 62135683200).toNat, by omega⟩
  have hr : (toU32 ((S / 86400 : Nat) : Int)).toNat = S / 86400 := by
    unfold toU32
    rw [UInt32.toNat_ofNat']
    omega
  obtain ⟨y, m, d, e, hv, hn, hy⟩ := rdnToYmd_spec (toU32 ((S / 86400 : Nat) : Int)) (by omega)
  refine ⟨_, _, _, _, _, _, ⟨hv, ?_, ?_, ?_, ?_⟩, hy, putDateTime_raw t S y m d hS e⟩
  · omega
  · omega
  · omega
  · rw [hn, hr]; unfold epochSeconds; omega

theorem wr_append (A B : Bytes) (j : Nat) (c : UInt8) :
    wr (A.length + j) c (A ++ B) = (wr j c B).map (A ++ ·) := by
  unfold wr
  by_cases h : j < B.length
  · rw [if_pos h, if_pos (by simp; omega), List.set_append_right _ _ (by omega)]
    simp
  · rw [if_neg h, if_neg (by simp; omega)]; rfl

theorem wr_at {A B : Bytes} {i : Nat} (hA : A.length = i) (b c : UInt8) :
    wr i c (A ++ b :: B) = some (A ++ c :: B) := by
  have := wr_append A (b :: B) 0 c
  rw [Nat.add_zero, hA] at this
  rw [this]; rfl

theorem padDigits_length (w n : Nat) : (padDigits w n).length = w := by
  induction w generalizing n with
  | zero => rfl
  | succ w ih => simp [padDigits, ih]

theorem padDigits_digits (w n : Nat) : ∀ c ∈ padDigits w n, IsDigit c := by
  induction w generalizing n with
  | zero => simp [padDigits]
  | succ w ih =>
    intro c hc
    simp only [padDigits, List.mem_append, List.mem_singleton] at hc
    rcases hc with hc | hc
    · exact ih _ c hc
    · subst hc; exact isDigit_digit (by omega)

theorem padDigits_val (w n : Nat) : digitsVal (padDigits w n) = n % 10 ^ w := by
  induction w generalizing n with
  | zero => simp [padDigits, digitsVal, Nat.mod_one]
  | succ w ih =>
    have hd : (UInt8.ofNat (48 + n % 10)).toNat = 48 + n % 10 := by
      rw [UInt8.toNat_ofNat']; omega
    rw [padDigits, digitsVal_append, ih, hd, Nat.pow_succ, Nat.mul_comm (10 ^ w), Nat.mod_mul]
    omega

/-- Trailing zeros of the written digits. -/
theorem countPad_spec (n i : Nat) : ∀ (A L R : Bytes), A.length = n + 1 → L.length = i →
    ∃ T, L = T ++ List.replicate (countPad (A ++ L ++ R) n i) (c! '0') ∧
      (T = [] ∨ ∃ a d, T = a ++ [d] ∧ d ≠ c! '0') := by
  induction i with
  | zero =>
    intro A L R _ hL
    refine ⟨[], ?_, Or.inl rfl⟩
    rw [List.length_eq_zero_iff.1 hL]; rfl
  | succ i ih =>
    intro A L R hA hL
    rcases List.eq_nil_or_concat L with h | ⟨L', x, h⟩
    · subst h; simp at hL
    · subst h
      rw [List.concat_eq_append] at *
      have hL' : L'.length = i := by simpa using hL
      have hx : (A ++ (L' ++ [x]) ++ R)[n + (i + 1)]? = some x := by
        have e : A ++ (L' ++ [x]) ++ R = (A ++ L') ++ (x :: R) := by simp
        rw [e, List.getElem?_append_right (by simp; omega)]
        rw [List.length_append, hA, hL', show n + (i + 1) - (n + 1 + i) = 0 by omega]; rfl
      have e : A ++ (L' ++ [x]) ++ R = A ++ L' ++ (x :: R) := by simp
      rw [countPad, hx]
      by_cases h0 : x = c! '0'
      · subst h0
        rw [if_pos rfl, e]
        obtain ⟨T, hT, hl⟩ := ih A L' (c! '0' :: R) hA hL'
        refine ⟨T, ?_, hl⟩
        rw [List.replicate_succ', ← List.append_assoc, ← hT]
      · rw [if_neg (by simpa using h0)]
        exact ⟨L' ++ [x], by simp, Or.inr ⟨L', x, rfl, h0⟩⟩

theorem wrDigits_spec (k : Nat) : ∀ (A C B : Bytes) (x hi : Nat), C.length = k →
    hi + 1 = A.length + k → wrDigits k hi x (A ++ (C ++ B)) = some (A ++ (padDigits k x ++ B)) := by
  induction k with
  | zero =>
    intro A C B x hi hC _
    rw [List.length_eq_zero_iff.1 hC]; rfl
  | succ k ih =>
    intro A C B x hi hC hhi
    rcases List.eq_nil_or_concat C with h | ⟨C', b, h⟩
    · subst h; simp at hC
    · subst h
      rw [List.concat_eq_append] at *
      have hC' : C'.length = k := by simpa using hC
      rw [wrDigits, show A ++ (C' ++ [b] ++ B) = (A ++ C') ++ (b :: B) by simp,
        wr_at (by simp; omega)]
      simp only [Option.bind_eq_bind, Option.bind_some]
      rw [List.append_assoc]
      cases k with
      | zero =>
        rw [List.length_eq_zero_iff.1 hC', ofNat_add48]
        simp [wrDigits, padDigits]
      | succ k =>
        rw [ih A C' _ (x / 10) (hi - 1) hC' (by omega), padDigits.eq_2 x (k + 1), ofNat_add48]
        simp

theorem digitsVal_zeros (k : Nat) : digitsVal (List.replicate k (c! '0')) = 0 := by
  induction k with
  | zero => rfl
  | succ k ih => rw [List.replicate_succ, digitsVal_cons, ih]; simp

theorem putFrac_spec (t : GoTime) (nano : Bool) (P : Bytes) (hP : P.length = 20)
    (hn : t.nsec < 1000000000) :
    ∃ f R, putFrac t nano (P ++ List.replicate 17 0) = some (P ++ f ++ R, (P ++ f).length) ∧
      7 ≤ R.length ∧ FracText f 9 (if nano then t.nsec else 0) := by
  unfold putFrac
  by_cases h : nano = true ∧ t.nsec ≠ 0
  · rw [if_pos (by simp [h])]
    have e : (List.replicate 17 0 : Bytes) = 0 :: (List.replicate 9 0 ++ List.replicate 7 0) := rfl
    rw [e, wr_at hP]
    simp only [Option.bind_eq_bind, Option.bind_some]
    rw [show P ++ c! '.' :: (List.replicate 9 0 ++ List.replicate 7 0) =
        (P ++ [c! '.']) ++ (List.replicate 9 0 ++ List.replicate 7 0) by simp,
      wrDigits_spec 9 _ _ _ _ _ rfl (by simp [hP])]
    simp only [Option.bind_some]
    rw [← List.append_assoc (P ++ [c! '.'])]
    obtain ⟨T, hT, hl⟩ := countPad_spec 20 9 (P ++ [c! '.']) (padDigits 9 t.nsec) (List.replicate 7 0)
      (by simp [hP]) (padDigits_length _ _)
    generalize hk : countPad _ 20 9 = k at *
    have hlen : T.length + k = 9 := by
      have := congrArg List.length hT
      rw [padDigits_length] at this
      simpa using this.symm
    have hval := padDigits_val 9 t.nsec
    have hz := digitsVal_zeros k
    rw [hT, digitsVal_append', hz, List.length_replicate, Nat.mod_eq_of_lt (by omega)] at hval
    refine ⟨c! '.' :: T, List.replicate k (c! '0') ++ List.replicate 7 0, ?_, by simp, ?_⟩
    · simp only [pure, List.append_assoc, List.length_append, List.length_cons, hP]
      rw [hT]
      simp
      omega
    · right
      rcases hl with hl | ⟨a, d, e1, e2⟩
      · subst hl
        simp [digitsVal] at hval
        exact absurd hval.symm h.2
      · refine ⟨a, d, by rw [e1], e2, ?_, ?_, ?_⟩
        · intro c hc
          apply padDigits_digits 9 t.nsec
          rw [hT, e1]; exact List.mem_append_left _ hc
        · rw [← e1]; omega
        · rw [← e1, show 9 - T.length = k by omega, h.1]
          simpa using hval
  · rw [if_neg (by simpa using h)]
    refine ⟨[], List.replicate 17 0, by simp [hP], by simp, Or.inl ⟨rfl, ?_⟩⟩
    by_cases hn : nano = true
    · simp [hn] at h ⊢; exact h
    · simp [hn]

theorem wr_here (A B : Bytes) (c : UInt8) : wr A.length c (A ++ B) = (wr 0 c B).map (A ++ ·) :=
  wr_append A B 0 c

theorem putZone_spec (t : GoTime) (A R : Bytes) (hR : 7 ≤ R.length) :
    ∃ b R', putZone t (A ++ R) A.length =
      some (A ++ zoneText t.offset ++ b :: R', (A ++ zoneText t.offset).length) := by
  match R, hR with
  | b0 :: b1 :: b2 :: b3 :: b4 :: b5 :: b6 :: R, _ =>
    by_cases h : t.offset = 0
    · refine ⟨b1, b2 :: b3 :: b4 :: b5 :: b6 :: R, ?_⟩
      have hz : zoneText t.offset = b! "Z" := by rw [zoneText, if_pos h]
      rw [hz]
      unfold putZone
      rw [if_pos h, wr_at rfl]
      simp
    · refine ⟨b6, R, ?_⟩
      obtain ⟨z, hz⟩ : ∃ z : Nat, (if t.offset.tdiv 60 < 0 then -t.offset.tdiv 60 else t.offset.tdiv 60) = (z : Int) :=
        ⟨(t.offset.tdiv 60).natAbs, by split <;> omega⟩
      have hz' : (t.offset.tdiv 60).natAbs = z := by split at hz <;> omega
      have hzt : zoneText t.offset = [if t.offset.tdiv 60 < 0 then c! '-' else c! '+',
          UInt8.ofNat (48 + z / 60 / 10 % 10), UInt8.ofNat (48 + z / 60 % 10), c! ':',
          UInt8.ofNat (48 + z % 60 / 10 % 10), UInt8.ofNat (48 + z % 60 % 10)] := by
        rw [zoneText, if_neg h]
        simp only [hz']
        split <;> rfl
      have hm : putZone t (A ++ b0 :: b1 :: b2 :: b3 :: b4 :: b5 :: b6 :: R) A.length =
          some (A ++ (if t.offset.tdiv 60 < 0 then c! '-' else c! '+') ::
            byteDigit ((z / 10 / 6 / 10 % 10 : Nat) : Int) :: byteDigit ((z / 10 / 6 % 10 : Nat) : Int) :: c! ':' ::
            byteDigit ((z / 10 % 6 : Nat) : Int) :: byteDigit ((z % 10 : Nat) : Int) :: b6 :: R, A.length + 6) := by
        unfold putZone
        rw [if_neg h]
        simp only [hz]
        have w : ∀ j c (C : Bytes) x, wr j c C = some x → wr (A.length + j) c (A ++ C) = some (A ++ x) := by
          intro j c C x hx; rw [wr_append, hx]; rfl
        rw [wr_at rfl, Option.bind_eq_bind, Option.bind_some, w 3 _ _ _ (by simp only [wr]; rfl),
          Option.bind_some, w 5 _ _ _ (by simp only [wr]; rfl),
          Option.bind_some, w 4 _ _ _ (by simp only [wr]; rfl),
          Option.bind_some, w 2 _ _ _ (by simp only [wr]; rfl),
          Option.bind_some, w 1 _ _ _ (by simp only [wr]; rfl)]
        rfl
      rw [hm, hzt, byteDigit_nat _ (by omega), byteDigit_nat _ (by omega), byteDigit_nat _ (by omega),
        byteDigit_nat _ (by omega)]
      have a1 : z / 10 / 6 / 10 % 10 = z / 60 / 10 % 10 := by omega
      have a2 : z / 10 / 6 % 10 = z / 60 % 10 := by omega
      have a3 : z / 10 % 6 = z % 60 / 10 % 10 := by omega
      have a4 : z % 10 = z % 60 % 10 := by omega
      rw [a1, a2, a3, ← a4]
      simp

theorem appendRFC3339_of (t : GoTime) (dst D : Bytes) (nano : Bool) (hD : D.length = 19)
    (hn : t.nsec < 1000000000)
    (hb : putDateTime t = some (c! '"' :: (D ++ List.replicate 17 0))) :
    ∃ f, FracText f 9 (if nano then t.nsec else 0) ∧
      appendRFC3339Time t dst nano = some (dst ++ (b! "\"" ++ (D ++ f ++ zoneText t.offset) ++ b! "\"")) := by
  obtain ⟨f, R, hf, hR, hft⟩ := putFrac_spec t nano (c! '"' :: D) (by simp [hD]) hn
  obtain ⟨b, R', hz⟩ := putZone_spec t (c! '"' :: D ++ f) R hR
  refine ⟨f, hft, ?_⟩
  unfold appendRFC3339Time
  rw [hb]
  simp only [Option.bind_eq_bind, Option.bind_some]
  rw [← List.cons_append, hf]
  simp only [Option.bind_some]
  rw [hz]
  simp only [Option.bind_some]
  rw [wr_at rfl]
  simp only [Option.bind_some, pure]
  congr 2
  rw [List.take_append, List.take_of_length_le (by omega)]
  simp [show ∀ a : Nat, a + 1 - a = 1 by intro a; omega]

theorem dateTimeText_length (y mo d h mi s : Nat) : (dateTimeText y mo d h mi s).length = 19 := rfl

end Jettison.Proofs
