import Verif.Spec.Utf8
import Verif.Model.Utf8

/-! Helper lemmas: `decodeRune` against the UTF-8 specification. -/

namespace Jettison.Proofs
open Jettison.Spec Jettison.Model

theorem u8_toNat_ofNat (n : Nat) (h : n < 256) : (UInt8.ofNat n).toNat = n := by
  simp [UInt8.toNat_ofNat', Nat.mod_eq_of_lt h]

theorem u8_eq_ofNat (b : UInt8) (n : Nat) (h : b.toNat = n) : b = UInt8.ofNat n := by
  subst h; simp

theorem and1F (n : Nat) : n &&& 0x1F = n % 32 := Nat.and_two_pow_sub_one_eq_mod n 5
theorem and3F (n : Nat) : n &&& 0x3F = n % 64 := Nat.and_two_pow_sub_one_eq_mod n 6
theorem and0F (n : Nat) : n &&& 0x0F = n % 16 := Nat.and_two_pow_sub_one_eq_mod n 4
theorem and07 (n : Nat) : n &&& 0x07 = n % 8 := Nat.and_two_pow_sub_one_eq_mod n 3

theorem rune2 (a b : Nat) :
    (a &&& 0x1F) <<< 6 ||| (b &&& 0x3F) = a % 32 * 64 + b % 64 := by
  rw [and1F, and3F, ← Nat.shiftLeft_add_eq_or_of_lt (by omega), Nat.shiftLeft_eq]

theorem rune3 (a b c : Nat) :
    (a &&& 0x0F) <<< 12 ||| (b &&& 0x3F) <<< 6 ||| (c &&& 0x3F)
      = a % 16 * 4096 + b % 64 * 64 + c % 64 := by
  rw [and0F, and3F, and3F]
  rw [← Nat.shiftLeft_add_eq_or_of_lt (a := a % 16) (b := (b % 64) <<< 6) (i := 12)
    (by rw [Nat.shiftLeft_eq]; omega)]
  rw [show (a % 16) <<< 12 + (b % 64) <<< 6 = (a % 16 * 64 + b % 64) <<< 6 by
    simp only [Nat.shiftLeft_eq]; omega]
  rw [← Nat.shiftLeft_add_eq_or_of_lt (by omega), Nat.shiftLeft_eq]
  omega

theorem rune4 (a b c d : Nat) :
    (a &&& 0x07) <<< 18 ||| (b &&& 0x3F) <<< 12 ||| (c &&& 0x3F) <<< 6 ||| (d &&& 0x3F)
      = a % 8 * 262144 + b % 64 * 4096 + c % 64 * 64 + d % 64 := by
  rw [and07, and3F, and3F, and3F]
  rw [← Nat.shiftLeft_add_eq_or_of_lt (a := a % 8) (b := (b % 64) <<< 12) (i := 18)
    (by rw [Nat.shiftLeft_eq]; omega)]
  rw [show (a % 8) <<< 18 + (b % 64) <<< 12 = (a % 8 * 64 + b % 64) <<< 12 by
    simp only [Nat.shiftLeft_eq]; omega]
  rw [← Nat.shiftLeft_add_eq_or_of_lt (b := (c % 64) <<< 6) (i := 12)
    (by rw [Nat.shiftLeft_eq]; omega)]
  rw [show (a % 8 * 64 + b % 64) <<< 12 + (c % 64) <<< 6
      = ((a % 8 * 64 + b % 64) * 64 + c % 64) <<< 6 by
    simp only [Nat.shiftLeft_eq]; omega]
  rw [← Nat.shiftLeft_add_eq_or_of_lt (by omega), Nat.shiftLeft_eq]
  omega

theorem utf8Encode_ne_nil (cp : Nat) : utf8Encode cp ≠ [] := by
  unfold utf8Encode; (repeat' split) <;> simp

theorem utf8Encode_length_pos (cp : Nat) : 0 < (utf8Encode cp).length :=
  List.length_pos_iff.mpr (utf8Encode_ne_nil cp)

/-- Every byte of a multi-byte encoding has the high bit set. -/
theorem utf8Encode_high {cp : Nat} (h : IsScalar cp) (h' : 0x80 ≤ cp) :
    ∀ b ∈ utf8Encode cp, 0x80 ≤ b := by
  unfold IsScalar at h
  intro b hb
  unfold utf8Encode at hb
  rw [if_neg (by omega)] at hb
  rw [UInt8.le_iff_toNat_le]
  change 128 ≤ b.toNat
  split at hb
  · simp only [List.mem_cons, List.not_mem_nil, or_false] at hb
    rcases hb with rfl | rfl <;> rw [u8_toNat_ofNat _ (by omega)] <;> omega
  split at hb
  · simp only [List.mem_cons, List.not_mem_nil, or_false] at hb
    rcases hb with rfl | rfl | rfl <;> rw [u8_toNat_ofNat _ (by omega)] <;> omega
  · simp only [List.mem_cons, List.not_mem_nil, or_false] at hb
    rcases hb with rfl | rfl | rfl | rfl <;> rw [u8_toNat_ofNat _ (by omega)] <;> omega

theorem utf8Encode_ascii {cp : Nat} (h : cp < 0x80) : utf8Encode cp = [UInt8.ofNat cp] := by
  unfold utf8Encode; rw [if_pos h]

theorem utf8Encode_len {cp : Nat} (h' : 0x80 ≤ cp) : 2 ≤ (utf8Encode cp).length := by
  unfold utf8Encode
  rw [if_neg (by omega)]
  (repeat' split) <;> simp


/-- The lead byte table in terms of numbers. -/
theorem leadInfo_spec (b : UInt8) :
    (b.toNat < 0xC2 ∨ 0xF5 ≤ b.toNat) ∧ leadInfo b = none ∨
    (0xC2 ≤ b.toNat ∧ b.toNat ≤ 0xDF) ∧ leadInfo b = some (2, 0x80, 0xBF) ∨
    (0xE0 ≤ b.toNat ∧ b.toNat ≤ 0xEF) ∧
      leadInfo b = some (3, if b.toNat = 0xE0 then 0xA0 else 0x80,
        if b.toNat = 0xED then 0x9F else 0xBF) ∨
    (0xF0 ≤ b.toNat ∧ b.toNat ≤ 0xF4) ∧
      leadInfo b = some (4, if b.toNat = 0xF0 then 0x90 else 0x80,
        if b.toNat = 0xF4 then 0x8F else 0xBF) := by
  revert b
  apply forall_byte
  decide +kernel

/-- Numeric description of a successful decode, by size. -/
def Good2 (p0 b1 : UInt8) : Prop :=
  0xC2 ≤ p0.toNat ∧ p0.toNat ≤ 0xDF ∧ 0x80 ≤ b1.toNat ∧ b1.toNat ≤ 0xBF
def Good3 (p0 b1 b2 : UInt8) : Prop :=
  0xE0 ≤ p0.toNat ∧ p0.toNat ≤ 0xEF ∧ 0x80 ≤ b1.toNat ∧ b1.toNat ≤ 0xBF ∧
  0x80 ≤ b2.toNat ∧ b2.toNat ≤ 0xBF ∧
  (p0.toNat = 0xE0 → 0xA0 ≤ b1.toNat) ∧ (p0.toNat = 0xED → b1.toNat ≤ 0x9F)
def Good4 (p0 b1 b2 b3 : UInt8) : Prop :=
  0xF0 ≤ p0.toNat ∧ p0.toNat ≤ 0xF4 ∧ 0x80 ≤ b1.toNat ∧ b1.toNat ≤ 0xBF ∧
  0x80 ≤ b2.toNat ∧ b2.toNat ≤ 0xBF ∧ 0x80 ≤ b3.toNat ∧ b3.toNat ≤ 0xBF ∧
  (p0.toNat = 0xF0 → 0x90 ≤ b1.toNat) ∧ (p0.toNat = 0xF4 → b1.toNat ≤ 0x8F)

theorem isCont_iff (b : UInt8) : isCont b = true ↔ 0x80 ≤ b.toNat ∧ b.toNat ≤ 0xBF := by
  simp [isCont, UInt8.le_iff_toNat_le]

theorem decodeRune_good2 (p0 b1 : UInt8) (t : Bytes) (h : Good2 p0 b1) :
    decodeRune (p0 :: b1 :: t) = (p0.toNat % 32 * 64 + b1.toNat % 64, 2) := by
  obtain ⟨h1, h2, h3, h4⟩ := h
  rcases leadInfo_spec p0 with h | h | h | h
  · omega
  · rw [decodeRune, if_neg (by simp [UInt8.lt_iff_toNat_lt]; omega)]
    simp only [h.2]
    rw [if_neg (by simp [UInt8.lt_iff_toNat_lt]; omega), rune2]
  · omega
  · omega

theorem decodeRune_good3 (p0 b1 b2 : UInt8) (t : Bytes) (h : Good3 p0 b1 b2) :
    decodeRune (p0 :: b1 :: b2 :: t) =
      (p0.toNat % 16 * 4096 + b1.toNat % 64 * 64 + b2.toNat % 64, 3) := by
  obtain ⟨h1, h2, h3, h4, h5, h6, h7, h8⟩ := h
  rcases leadInfo_spec p0 with h | h | h | h
  · omega
  · omega
  · rw [decodeRune, if_neg (by simp [UInt8.lt_iff_toNat_lt]; omega)]
    simp only [h.2]
    rw [if_neg, if_neg (by simp [(isCont_iff b2).mpr ⟨h5, h6⟩]), rune3]
    simp only [UInt8.lt_iff_toNat_lt, Bool.or_eq_true, decide_eq_true_eq]
    split <;> split <;> simp <;> omega
  · omega

theorem decodeRune_good4 (p0 b1 b2 b3 : UInt8) (t : Bytes) (h : Good4 p0 b1 b2 b3) :
    decodeRune (p0 :: b1 :: b2 :: b3 :: t) =
      (p0.toNat % 8 * 262144 + b1.toNat % 64 * 4096 + b2.toNat % 64 * 64 + b3.toNat % 64, 4) := by
  obtain ⟨h1, h2, h3, h4, h5, h6, h9, h10, h7, h8⟩ := h
  rcases leadInfo_spec p0 with h | h | h | h
  · omega
  · omega
  · omega
  · rw [decodeRune, if_neg (by simp [UInt8.lt_iff_toNat_lt]; omega)]
    simp only [h.2]
    rw [if_neg, if_neg (by simp [(isCont_iff b2).mpr ⟨h5, h6⟩]),
      if_neg (by simp [(isCont_iff b3).mpr ⟨h9, h10⟩]), rune4]
    simp only [UInt8.lt_iff_toNat_lt, Bool.or_eq_true, decide_eq_true_eq]
    split <;> split <;> simp <;> omega

theorem decodeRune_cases (p0 : UInt8) (t : Bytes) (h0 : 0x80 ≤ p0.toNat) :
    decodeRune (p0 :: t) = (runeError, 1) ∨
    (∃ b1 t', t = b1 :: t' ∧ Good2 p0 b1) ∨
    (∃ b1 b2 t', t = b1 :: b2 :: t' ∧ Good3 p0 b1 b2) ∨
    (∃ b1 b2 b3 t', t = b1 :: b2 :: b3 :: t' ∧ Good4 p0 b1 b2 b3) := by
  rw [decodeRune, if_neg (by simp [UInt8.lt_iff_toNat_lt]; omega)]
  rcases leadInfo_spec p0 with h | h | h | h
  · simp [h.2]
  · simp only [h.2]
    match t with
    | [] => exact Or.inl rfl
    | b1 :: t =>
      simp only
      split
      · exact Or.inl rfl
      · rename_i g
        simp [UInt8.lt_iff_toNat_lt] at g
        exact Or.inr (Or.inl ⟨b1, t, rfl, h.1.1, h.1.2, g.1, g.2⟩)
  · obtain ⟨hr, h⟩ := h
    generalize hlo : (if p0.toNat = 0xE0 then (0xA0 : UInt8) else 0x80) = lo at h
    generalize hhi : (if p0.toNat = 0xED then (0x9F : UInt8) else 0xBF) = hi at h
    simp only [h]
    match t with
    | [] => exact Or.inl rfl
    | [b1] => exact Or.inl rfl
    | b1 :: b2 :: t =>
      simp only
      split
      · exact Or.inl rfl
      split
      · exact Or.inl rfl
      · rename_i g g2
        simp only [Bool.not_eq_true', Bool.not_eq_false, isCont_iff] at g2
        simp only [UInt8.lt_iff_toNat_lt, Bool.or_eq_true, decide_eq_true_eq] at g
        refine Or.inr (Or.inr (Or.inl ⟨b1, b2, t, rfl, ?_⟩))
        unfold Good3
        subst hlo hhi
        split at g <;> split at g <;> simp at g <;> omega
  · obtain ⟨hr, h⟩ := h
    generalize hlo : (if p0.toNat = 0xF0 then (0x90 : UInt8) else 0x80) = lo at h
    generalize hhi : (if p0.toNat = 0xF4 then (0x8F : UInt8) else 0xBF) = hi at h
    simp only [h]
    match t with
    | [] => exact Or.inl rfl
    | [b1] => exact Or.inl rfl
    | [b1, b2] => exact Or.inl rfl
    | b1 :: b2 :: b3 :: t =>
      simp only
      split
      · exact Or.inl rfl
      split
      · exact Or.inl rfl
      split
      · exact Or.inl rfl
      · rename_i g g2 g3
        simp only [Bool.not_eq_true', Bool.not_eq_false, isCont_iff] at g2 g3
        simp only [UInt8.lt_iff_toNat_lt, Bool.or_eq_true, decide_eq_true_eq] at g
        refine Or.inr (Or.inr (Or.inr ⟨b1, b2, b3, t, rfl, ?_⟩))
        unfold Good4
        subst hlo hhi
        split at g <;> split at g <;> simp at g <;> omega

/-- `decodeRune` reads back an encoded scalar value. -/
theorem decodeRune_encode (cp : Nat) (rest : Bytes) (h : IsScalar cp) :
    decodeRune (utf8Encode cp ++ rest) = (cp, (utf8Encode cp).length) := by
  unfold IsScalar at h
  unfold utf8Encode
  split
  · rename_i h1
    simp only [List.cons_append, List.nil_append, decodeRune, UInt8.lt_iff_toNat_lt,
      u8_toNat_ofNat cp (by omega)]
    rw [if_pos (by simpa using h1)]; simp
  split
  · rw [List.cons_append, List.cons_append, decodeRune_good2]
    · rw [u8_toNat_ofNat _ (by omega), u8_toNat_ofNat _ (by omega)]; simp; omega
    · unfold Good2; rw [u8_toNat_ofNat _ (by omega), u8_toNat_ofNat _ (by omega)]; omega
  split
  · rw [List.cons_append, List.cons_append, List.cons_append, decodeRune_good3]
    · rw [u8_toNat_ofNat _ (by omega), u8_toNat_ofNat _ (by omega), u8_toNat_ofNat _ (by omega)]
      simp; omega
    · unfold Good3
      rw [u8_toNat_ofNat _ (by omega), u8_toNat_ofNat _ (by omega), u8_toNat_ofNat _ (by omega)]
      omega
  · rw [List.cons_append, List.cons_append, List.cons_append, List.cons_append, decodeRune_good4]
    · rw [u8_toNat_ofNat _ (by omega), u8_toNat_ofNat _ (by omega), u8_toNat_ofNat _ (by omega),
        u8_toNat_ofNat _ (by omega)]
      simp; omega
    · unfold Good4
      rw [u8_toNat_ofNat _ (by omega), u8_toNat_ofNat _ (by omega), u8_toNat_ofNat _ (by omega),
        u8_toNat_ofNat _ (by omega)]
      omega

/-- Whatever `decodeRune` accepts is the encoding of a scalar value. -/
theorem decodeRune_sound (p0 : UInt8) (t : Bytes) (h0 : 0x80 ≤ p0.toNat) :
    (decodeRune (p0 :: t) = (runeError, 1) ∧ BadStart (p0 :: t)) ∨
    ∃ cp rest, IsScalar cp ∧ 0x80 ≤ cp ∧ p0 :: t = utf8Encode cp ++ rest ∧
      decodeRune (p0 :: t) = (cp, (utf8Encode cp).length) := by
  have key : ∀ cp rest, IsScalar cp → 0x80 ≤ cp → p0 :: t = utf8Encode cp ++ rest →
      ∃ cp rest, IsScalar cp ∧ 0x80 ≤ cp ∧ p0 :: t = utf8Encode cp ++ rest ∧
        decodeRune (p0 :: t) = (cp, (utf8Encode cp).length) := by
    intro cp rest hs hc he
    exact ⟨cp, rest, hs, hc, he, by rw [he]; exact decodeRune_encode cp rest hs⟩
  rcases decodeRune_cases p0 t h0 with h | ⟨b1, t', rfl, h⟩ | ⟨b1, b2, t', rfl, h⟩ |
    ⟨b1, b2, b3, t', rfl, h⟩
  · left
    refine ⟨h, ?_⟩
    rintro cp hs ⟨rest, hr⟩
    rw [← hr, decodeRune_encode cp rest hs] at h
    have h2 : (utf8Encode cp).length = 1 := congrArg Prod.snd h
    by_cases hc : cp < 0x80
    · rw [utf8Encode_ascii hc] at hr
      simp at hr
      rw [← hr.1, u8_toNat_ofNat _ (by omega)] at h0
      omega
    · have := utf8Encode_len (cp := cp) (by omega)
      omega
  · right
    obtain ⟨h1, h2, h3, h4⟩ := h
    refine key (p0.toNat % 32 * 64 + b1.toNat % 64) t' (Or.inl (by omega)) (by omega) ?_
    unfold utf8Encode
    rw [if_neg (by omega), if_pos (by omega)]
    simp only [List.cons_append, List.nil_append]
    simp only [List.cons.injEq, and_true]
    exact ⟨u8_eq_ofNat _ _ (by omega), u8_eq_ofNat _ _ (by omega)⟩
  · right
    obtain ⟨h1, h2, h3, h4, h5, h6, h7, h8⟩ := h
    refine key (p0.toNat % 16 * 4096 + b1.toNat % 64 * 64 + b2.toNat % 64) t'
      (by unfold IsScalar; omega) (by omega) ?_
    unfold utf8Encode
    rw [if_neg (by omega), if_neg (by omega), if_pos (by omega)]
    simp only [List.cons_append, List.nil_append, List.cons.injEq, and_true]
    exact ⟨u8_eq_ofNat _ _ (by omega), u8_eq_ofNat _ _ (by omega), u8_eq_ofNat _ _ (by omega)⟩
  · right
    obtain ⟨h1, h2, h3, h4, h5, h6, h9, h10, h7, h8⟩ := h
    refine key (p0.toNat % 8 * 262144 + b1.toNat % 64 * 4096 + b2.toNat % 64 * 64
          + b3.toNat % 64) t' (by unfold IsScalar; omega) (by omega) ?_
    unfold utf8Encode
    rw [if_neg (by omega), if_neg (by omega), if_neg (by omega)]
    simp only [List.cons_append, List.nil_append, List.cons.injEq, and_true]
    exact ⟨u8_eq_ofNat _ _ (by omega), u8_eq_ofNat _ _ (by omega), u8_eq_ofNat _ _ (by omega),
      u8_eq_ofNat _ _ (by omega)⟩

end Jettison.Proofs
