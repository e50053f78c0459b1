import Verif.Proofs.CompactGr
import Verif.Spec.Html

/-! # Texts that compaction leaves as they are -/

namespace Jettison.Proofs
open Jettison Jettison.Spec Jettison.Model

/-- Nothing to be escaped: no separators and, with HTML escaping, no markup. -/
def Unmarked (esc : Bool) (b : Bytes) : Prop := (esc = true → NoMarkup b) ∧ NoSeparator b

theorem Unmarked.part {esc : Bool} {u s : Bytes} (h : Unmarked esc s) (x y : Bytes) (e : s = x ++ u ++ y) : Unmarked esc u := by
  have hi : u <:+: s := ⟨x, y, e.symm⟩
  refine ⟨fun he => ?_, fun hu => h.2.1 (hu.trans hi), fun hu => h.2.2 (hu.trans hi)⟩
  obtain ⟨h1, h2, h3⟩ := h.1 he
  exact ⟨fun hc => h1 (hi.subset hc), fun hc => h2 (hi.subset hc), fun hc => h3 (hi.subset hc)⟩

theorem Unmarked.tail {esc : Bool} {c : UInt8} {t : Bytes} (h : Unmarked esc (c :: t)) : Unmarked esc t := h.part [c] [] (by simp)

theorem Unmarked.char {esc : Bool} {c : UInt8} {t : Bytes} (h : Unmarked esc (c :: t)) : (esc && htmlChar c) = false := by
  cases esc with
  | false => rfl
  | true =>
    obtain ⟨h1, h2, h3⟩ := h.1 rfl
    simp only [List.mem_cons, not_or] at h1 h2 h3
    simp only [htmlChar, Bool.true_and, Bool.or_eq_false_iff, decide_eq_false_iff_not]
    refine ⟨⟨?_, ?_⟩, ?_⟩ <;> (rintro rfl; simp_all)

theorem sepLast_iff : ∀ x : UInt8, sepLast x = true → x = 0xA8 ∨ x = 0xA9 := by
  refine forall_byte ?_
  decide +kernel

theorem Unmarked.front {esc : Bool} {x : UInt8} {t : Bytes} (h : Unmarked esc (x :: t)) (rest : Bytes) :
    sepFront (x :: (t ++ c! '"' :: rest)) = none := by
  have no : ∀ a b c r, x :: (t ++ c! '"' :: rest) = a :: b :: c :: r → ¬ (a = 0xE2 ∧ b = 0x80 ∧ sepLast c = true) := by
    rintro a b c r e ⟨rfl, rfl, hc⟩
    match t, e with
    | [], e => simp at e
    | [y], e =>
      simp only [List.cons_append, List.nil_append, List.cons.injEq] at e
      rw [← e.2.2.1] at hc
      exact absurd hc (by decide)
    | y :: z :: t, e =>
      simp only [List.cons_append, List.cons.injEq] at e
      obtain ⟨rfl, rfl, rfl, -⟩ := e
      rcases sepLast_iff _ hc with rfl | rfl
      · exact h.2.1 ⟨[], t, rfl⟩
      · exact h.2.2 ⟨[], t, rfl⟩
  unfold sepFront
  split
  · next a b c r e => rw [if_neg (no a b c r e)]
  · rfl

theorem body_fixed {esc : Bool} {body c : Bytes} (h : Body body c) :
    Unmarked esc body → ∀ rest, cmp esc true false (body ++ c! '"' :: rest) = body ++ c! '"' :: cmp esc false false rest := by
  induction h with
  | nil => exact fun _ r => cmp_close r
  | raw x t s h1 h2 h3 _ ih =>
    intro hu r
    rw [List.cons_append, cmp_raw _ hu.char (hu.front r) h2 h3, ih hu.tail]; rfl
  | esc e b t s h1 _ _ ih =>
    intro hu r
    rw [List.cons_append, List.cons_append, cmp_bs, cmp_skip _ (simpleEscape_neutral e (by rw [h1]; rfl)), ih hu.tail.tail]; rfl
  | uni a b c d u t s h1 _ _ ih | low a b c d u t s h1 _ _ _ ih | high a b c d u t s h1 _ _ _ _ ih =>
    intro hu r
    simp only [List.cons_append]
    rw [cmp_u4 _ h1, ih hu.tail.tail.tail.tail.tail.tail]
  | pair a b c d l1 l2 l3 l4 u v t s h1 _ _ h4 _ _ _ ih =>
    intro hu r
    simp only [List.cons_append]
    rw [cmp_u4 _ h1, cmp_u4 _ h4, ih hu.tail.tail.tail.tail.tail.tail.tail.tail.tail.tail.tail.tail]

theorem strToken_fixed {esc : Bool} {body c : Bytes} (h : unescape body = some c) (hu : Unmarked esc body) (rest : Bytes) :
    cmp esc false false (strToken body ++ rest) = strToken body ++ cmp esc false false rest := by
  simp only [strToken, List.cons_append, List.append_assoc, List.nil_append]
  rw [cmp_open, body_fixed (unescape_iff_body.1 h) hu]

theorem gr_fixed {esc : Bool} {nt : Nt} {s : Bytes} (h : Gr NoWs nt s) :
    Unmarked esc s → ∀ rest, cmp esc false false (s ++ rest) = s ++ cmp esc false false rest := by
  have nt1 : ∀ (c : UInt8) (t : Bytes), Neutral c → cmp esc false false (c :: t) = c :: cmp esc false false t :=
    fun c t h => cmp_neutral t h
  have nLb : Neutral (c! '[') := by decide
  have nRb : Neutral (c! ']') := by decide
  have nLc : Neutral (c! '{') := by decide
  have nRc : Neutral (c! '}') := by decide
  have nCo : Neutral (c! ',') := by decide
  have nCl : Neutral (c! ':') := by decide
  induction h with
  | null => exact fun _ r => cmp_token _ r (by decide)
  | true => exact fun _ r => cmp_token _ r (by decide)
  | false => exact fun _ r => cmp_token _ r (by decide)
  | num s hs => exact fun _ r => cmp_token _ r fun c hc => numByte_neutral c (number_bytes hs c hc)
  | str body c hb => exact fun hu r => strToken_fixed hb (hu.part [c! '"'] [c! '"'] (by simp [strToken])) r
  | arr0 w hw =>
    cases hw
    intro _ r
    simp only [List.cons_append, List.nil_append]
    rw [nt1 _ _ nLb, nt1 _ _ nRb]
  | arr js s _ ih =>
    intro hu r
    simp only [List.cons_append, List.append_assoc, List.nil_append]
    rw [nt1 _ _ nLb, ih (hu.part [c! '['] [c! ']'] (by simp)), nt1 _ _ nRb]
  | obj0 w hw =>
    cases hw
    intro _ r
    simp only [List.cons_append, List.nil_append]
    rw [nt1 _ _ nLc, nt1 _ _ nRc]
  | obj ms s _ ih =>
    intro hu r
    simp only [List.cons_append, List.append_assoc, List.nil_append]
    rw [nt1 _ _ nLc, ih (hu.part [c! '{'] [c! '}'] (by simp)), nt1 _ _ nRc]
  | elem w1 s w2 j h1 _ h2 ih =>
    cases h1; cases h2
    intro hu r
    simp only [List.nil_append, List.append_nil] at hu ⊢
    exact ih hu r
  | elemCons w1 s w2 t j js h1 _ h2 _ ih1 ih2 =>
    cases h1; cases h2
    intro hu r
    simp only [List.nil_append] at hu
    simp only [List.append_assoc, List.nil_append, List.cons_append]
    rw [ih1 (hu.part [] (c! ',' :: t) (by simp)), nt1 _ _ nCo, ih2 (hu.part (s ++ [c! ',']) [] (by simp))]
  | member w1 kb w2 w3 s w4 k j h1 hk h2 h3 _ h4 ih =>
    cases h1; cases h2; cases h3; cases h4
    intro hu r
    simp only [List.nil_append, List.append_nil] at hu
    simp only [List.append_assoc, List.nil_append, List.append_nil, List.cons_append]
    rw [strToken_fixed hk (hu.part [c! '"'] (c! '"' :: c! ':' :: s) (by simp [strToken])), nt1 _ _ nCl,
      ih (hu.part (strToken kb ++ [c! ':']) [] (by simp))]
  | memberCons w1 kb w2 w3 s w4 t k j ms h1 hk h2 h3 _ h4 _ ih1 ih2 =>
    cases h1; cases h2; cases h3; cases h4
    intro hu r
    simp only [List.nil_append] at hu
    simp only [List.append_assoc, List.nil_append, List.cons_append]
    rw [strToken_fixed hk (hu.part [c! '"'] (c! '"' :: c! ':' :: (s ++ c! ',' :: t)) (by simp [strToken])), nt1 _ _ nCl,
      ih1 (hu.part (strToken kb ++ [c! ':']) (c! ',' :: t) (by simp)), nt1 _ _ nCo,
      ih2 (hu.part (strToken kb ++ c! ':' :: (s ++ [c! ','])) [] (by simp))]

/-- A JSON text without whitespace and without anything to be escaped is left as it is. -/
theorem compact_fixed {esc : Bool} {j : Json} {b : Bytes} (h : CompactText j b) (hu : Unmarked esc b) (dst : Bytes) :
    appendCompactJSON dst b esc = dst ++ b := by
  have := gr_fixed h hu []
  rw [List.append_nil, cmp_nil, List.append_nil] at this
  rw [appendCompactJSON_eq, this]

end Jettison.Proofs
