import Verif.Spec.Base64
import Verif.Model.Base64

/-! # Base64: the encoder against the bit level specification -/

namespace Jettison.Proofs
open Jettison.Spec Jettison.Model

theorem encChar_eq (v : Nat) : encChar v = base64Alphabet.getD (v &&& 0x3F) 0 := rfl

theorem and63_lt (v : Nat) : v &&& 0x3F < 64 := Nat.lt_of_le_of_lt Nat.and_le_right (by decide)

theorem bitsOf6 (v : Nat) : bitsOf 6 v = [v.testBit 5, v.testBit 4, v.testBit 3, v.testBit 2, v.testBit 1, v.testBit 0] := rfl
theorem bitsOf8 (v : Nat) : bitsOf 8 v = [v.testBit 7, v.testBit 6, v.testBit 5, v.testBit 4, v.testBit 3, v.testBit 2, v.testBit 1, v.testBit 0] := rfl

theorem byte_high (c : UInt8) (i : Nat) (h : 8 ≤ i) : c.toNat.testBit i = false :=
  Nat.testBit_lt_two_pow (Nat.lt_of_lt_of_le (UInt8.toNat_lt c) (Nat.pow_le_pow_right (by decide) h))

theorem m5 : Nat.testBit 63 5 = true := by decide
theorem m4 : Nat.testBit 63 4 = true := by decide
theorem m3 : Nat.testBit 63 3 = true := by decide
theorem m2 : Nat.testBit 63 2 = true := by decide
theorem m1 : Nat.testBit 63 1 = true := by decide

theorem bits3 (a b c : UInt8) :
    let val := (a.toNat <<< 16) ||| (b.toNat <<< 8) ||| c.toNat
    bitsOf 6 ((val >>> 18) &&& 0x3F) ++ (bitsOf 6 ((val >>> 12) &&& 0x3F) ++ (bitsOf 6 ((val >>> 6) &&& 0x3F) ++ bitsOf 6 (val &&& 0x3F))) =
      bitsOf 8 a.toNat ++ (bitsOf 8 b.toNat ++ bitsOf 8 c.toNat) := by
  simp [m1, m2, m3, m4, m5, bitsOf6, bitsOf8, Nat.testBit_or, Nat.testBit_shiftLeft, Nat.testBit_shiftRight, byte_high]

theorem bits2 (a b : UInt8) :
    let val := (a.toNat <<< 16) ||| (b.toNat <<< 8)
    bitsOf 6 ((val >>> 18) &&& 0x3F) ++ (bitsOf 6 ((val >>> 12) &&& 0x3F) ++ bitsOf 6 ((val >>> 6) &&& 0x3F)) =
      bitsOf 8 a.toNat ++ (bitsOf 8 b.toNat ++ [false, false]) := by
  simp [m1, m2, m3, m4, m5, bitsOf6, bitsOf8, Nat.testBit_or, Nat.testBit_shiftLeft, Nat.testBit_shiftRight, byte_high]

theorem bits1 (a : UInt8) :
    let val := a.toNat <<< 16
    bitsOf 6 ((val >>> 18) &&& 0x3F) ++ bitsOf 6 ((val >>> 12) &&& 0x3F) =
      bitsOf 8 a.toNat ++ [false, false, false, false] := by
  simp [m1, m2, m3, m4, m5, bitsOf6, bitsOf8, Nat.testBit_shiftLeft, Nat.testBit_shiftRight]

theorem stdEncode_spec : ∀ b : Bytes, IsBase64 b (stdEncode b)
  | [] => ⟨[], 0, by simp, by decide, by decide, rfl, rfl⟩
  | [a] => ⟨[_, _], 2, by simp only [List.mem_cons, List.not_mem_nil, or_false]; rintro i (rfl | rfl) <;> exact and63_lt _,
      by decide, by simp, rfl, by simpa [sextetBits, byteBits] using bits1 a⟩
  | [a, b] => ⟨[_, _, _], 1, by simp only [List.mem_cons, List.not_mem_nil, or_false]; rintro i (rfl | rfl | rfl) <;> exact and63_lt _,
      by decide, by simp, rfl, by simpa [sextetBits, byteBits] using bits2 a b⟩
  | a :: b :: c :: t => by
    obtain ⟨v, pad, h1, h2, h3, h4, h5⟩ := stdEncode_spec t
    refine ⟨(((a.toNat <<< 16) ||| (b.toNat <<< 8) ||| c.toNat) >>> 18 &&& 0x3F) ::
      (((a.toNat <<< 16) ||| (b.toNat <<< 8) ||| c.toNat) >>> 12 &&& 0x3F) ::
      (((a.toNat <<< 16) ||| (b.toNat <<< 8) ||| c.toNat) >>> 6 &&& 0x3F) ::
      (((a.toNat <<< 16) ||| (b.toNat <<< 8) ||| c.toNat) &&& 0x3F) :: v, pad, ?_, h2, ?_, ?_, ?_⟩
    rotate_left 2
    · rw [stdEncode, h4]; rfl
    · have := bits3 a b c
      simp only [sextetBits, byteBits, List.flatMap_cons] at h5 ⊢
      rw [h5]
      simp only at this
      simp only [← List.append_assoc] at this ⊢
      rw [this]
    · simp only [List.mem_cons]
      rintro i (rfl | rfl | rfl | rfl | h)
      · exact and63_lt _
      · exact and63_lt _
      · exact and63_lt _
      · exact and63_lt _
      · exact h1 i h
    · simp only [List.length_cons]; omega

theorem stdEncode_length : ∀ b : Bytes, (stdEncode b).length = encodedLen b.length
  | [] => rfl
  | [_] => by simp [stdEncode, encodedLen]
  | [_, _] => by simp [stdEncode, encodedLen]
  | a :: b :: c :: t => by
    have := stdEncode_length t
    simp only [stdEncode, List.length_cons, encodedLen] at this ⊢
    omega

theorem bitsOf_length (n v : Nat) : (bitsOf n v).length = n := by simp [bitsOf]

theorem byteBits_length (b : Bytes) : (byteBits b).length = 8 * b.length := by
  induction b with
  | nil => rfl
  | cons c b ih => simp only [byteBits, List.flatMap_cons, List.length_append, bitsOf_length, List.length_cons] at ih ⊢; omega

theorem bitsOf8_inj {a b : UInt8} (h : bitsOf 8 a.toNat = bitsOf 8 b.toNat) : a = b := by
  apply UInt8.toNat_inj.1
  apply Nat.eq_of_testBit_eq
  intro i
  by_cases hi : 8 ≤ i
  · rw [byte_high a i hi, byte_high b i hi]
  · simp only [bitsOf8, List.cons.injEq] at h
    have : i = 0 ∨ i = 1 ∨ i = 2 ∨ i = 3 ∨ i = 4 ∨ i = 5 ∨ i = 6 ∨ i = 7 := by omega
    rcases this with rfl | rfl | rfl | rfl | rfl | rfl | rfl | rfl <;> simp [h]

theorem byteBits_inj : ∀ {a b : Bytes}, byteBits a = byteBits b → a = b
  | [], [], _ => rfl
  | [], c :: b, h => by have := congrArg List.length h; simp [byteBits_length] at this
  | c :: b, [], h => by have := congrArg List.length h; simp [byteBits_length] at this
  | c :: a, d :: b, h => by
    simp only [byteBits, List.flatMap_cons] at h
    obtain ⟨h1, h2⟩ := List.append_inj h (by simp [bitsOf_length])
    rw [bitsOf8_inj h1, byteBits_inj h2]

theorem alphabet_inj : ∀ i j : Fin 64, base64Alphabet.getD i.val 0 = base64Alphabet.getD j.val 0 → i = j := by
  decide +kernel

theorem alphabet_ne_pad : ∀ i : Fin 64, base64Alphabet.getD i.val 0 ≠ c! '=' := by
  decide +kernel

theorem map_alphabet_inj : ∀ {v w : List Nat}, (∀ i ∈ v, i < 64) → (∀ i ∈ w, i < 64) →
    ∀ {p q : Nat}, v.map (fun i => base64Alphabet.getD i 0) ++ List.replicate p (c! '=') =
      w.map (fun i => base64Alphabet.getD i 0) ++ List.replicate q (c! '=') → v = w ∧ p = q
  | [], [], _, _, p, q, h => by
    have := congrArg List.length h
    simp at this; exact ⟨rfl, this⟩
  | i :: v, [], hv, _, p, q, h => by
    cases q with
    | zero => have := congrArg List.length h; simp at this
    | succ q =>
      simp only [List.map_cons, List.cons_append, List.map_nil, List.nil_append, List.replicate_succ, List.cons.injEq] at h
      exact absurd h.1 (alphabet_ne_pad ⟨i, hv i (by simp)⟩)
  | [], i :: w, _, hw, p, q, h => by
    cases p with
    | zero => have := congrArg List.length h; simp at this
    | succ q =>
      simp only [List.map_cons, List.cons_append, List.map_nil, List.nil_append, List.replicate_succ, List.cons.injEq] at h
      exact absurd h.1.symm (alphabet_ne_pad ⟨i, hw i (by simp)⟩)
  | i :: v, j :: w, hv, hw, p, q, h => by
    simp only [List.map_cons, List.cons_append, List.cons.injEq] at h
    have e := alphabet_inj ⟨i, hv i (by simp)⟩ ⟨j, hw j (by simp)⟩ h.1
    obtain ⟨h1, h2⟩ := map_alphabet_inj (fun i h => hv i (by simp [h])) (fun i h => hw i (by simp [h])) h.2
    exact ⟨by rw [h1, show i = j from congrArg Fin.val e], h2⟩

theorem isBase64_inj {a b t : Bytes} (h : IsBase64 a t) (h' : IsBase64 b t) : a = b := by
  obtain ⟨v, p, h1, -, -, h4, h5⟩ := h
  obtain ⟨w, q, h1', -, -, h4', h5'⟩ := h'
  rw [h4] at h4'
  obtain ⟨rfl, rfl⟩ := map_alphabet_inj h1 h1' h4'
  rw [h5] at h5'
  exact byteBits_inj (List.append_cancel_right h5')

/-- Every character of a base64 text is harmless in a JSON string. -/
theorem base64_plain {b t : Bytes} (h : IsBase64 b t) :
    ∀ c ∈ t, 0x20 ≤ c ∧ c < 0x80 ∧ c ≠ c! '"' ∧ c ≠ c! '\\' ∧ c ≠ c! '<' ∧ c ≠ c! '>' ∧ c ≠ c! '&' := by
  obtain ⟨v, p, h1, -, -, rfl, -⟩ := h
  have key : ∀ i : Fin 64, let c := base64Alphabet.getD i.val 0
      0x20 ≤ c ∧ c < 0x80 ∧ c ≠ c! '"' ∧ c ≠ c! '\\' ∧ c ≠ c! '<' ∧ c ≠ c! '>' ∧ c ≠ c! '&' := by decide +kernel
  intro c hc
  rcases List.mem_append.1 hc with hc | hc
  · obtain ⟨i, hi, rfl⟩ := List.mem_map.1 hc
    exact key ⟨i, h1 i hi⟩
  · rw [(List.mem_replicate.1 hc).2]; decide

end Jettison.Proofs
