import Verif.Spec.JsonNumber
import Verif.Model.Number

/-!
# Lemmas about the number grammar
-/

namespace Jettison.Proofs
open Jettison.Spec Jettison.Model

theorem isDig_iff (c : UInt8) : isDig c = true ↔ IsDigit c := by
  simp [isDig, IsDigit]

theorem skipDigits_append (ds rest : Bytes) (h : ∀ c ∈ ds, IsDigit c) :
    skipDigits (ds ++ rest) = skipDigits rest := by
  induction ds with
  | nil => rfl
  | cons c cs ih =>
    simp only [List.cons_append, skipDigits, (isDig_iff c).2 (h c (by simp)), if_true]
    exact ih (fun c hc => h c (by simp [hc]))

theorem skipDigits_split (s : Bytes) :
    ∃ ds, s = ds ++ skipDigits s ∧ ∀ c ∈ ds, IsDigit c := by
  induction s with
  | nil => exact ⟨[], rfl, by simp⟩
  | cons c cs ih =>
    obtain ⟨ds, h1, h2⟩ := ih
    by_cases h : isDig c = true
    · refine ⟨c :: ds, ?_, ?_⟩
      · simp only [skipDigits, h, if_true, List.cons_append]; rw [← h1]
      · intro d hd
        rcases List.mem_cons.1 hd with rfl | hd
        · exact (isDig_iff _).1 h
        · exact h2 d hd
    · exact ⟨[], by simp [skipDigits, h], by simp⟩

theorem skipDigits_nondigit (c : UInt8) (cs : Bytes) (h : ¬ IsDigit c) :
    skipDigits (c :: cs) = c :: cs := by
  have : isDig c = false := by
    cases hd : isDig c
    · rfl
    · exact absurd ((isDig_iff c).1 hd) h
  simp [skipDigits, this]

/-- What may follow the digits of an integer or fraction part. -/
def NoDigitHead (s : Bytes) : Prop := ∀ c cs, s = c :: cs → ¬ IsDigit c

theorem skipDigits_nodigit {s : Bytes} (h : NoDigitHead s) : skipDigits s = s := by
  cases s with
  | nil => rfl
  | cons c cs => exact skipDigits_nondigit c cs (h c cs rfl)

theorem exp_nodigit {e : Bytes} (h : ExpPart e) : NoDigitHead e := by
  rintro c cs rfl
  rcases h with h | ⟨e, sg, ds, h, he, _⟩
  · simp at h
  · simp only [List.cons.injEq] at h
    rcases he with he | he <;> (rw [h.1, he]; decide)

theorem frac_nodigit {f e : Bytes} (hf : FracPart f) (he : ExpPart e) : NoDigitHead (f ++ e) := by
  rcases hf with rfl | ⟨ds, rfl, _⟩
  · exact exp_nodigit he
  · intro c cs h
    simp only [List.cons_append, List.cons.injEq] at h
    rw [← h.1]; decide

theorem stripExp_complete {e : Bytes} (h : ExpPart e) : stripExp e = some [] := by
  rcases h with rfl | ⟨c, sg, ds, rfl, hc, hsg, hne, hds⟩
  · rfl
  · have h1 : (c = c! 'e' ∨ c = c! 'E') := hc
    have hsk : skipDigits ds = [] := by
      have := skipDigits_append ds [] hds
      simpa [skipDigits] using this
    rcases hsg with rfl | rfl | rfl
    · cases ds with
      | nil => exact absurd rfl hne
      | cons d ds =>
        have hd := hds d (by simp)
        have h2 : ¬ (d = c! '+' ∨ d = c! '-') := by
          intro h
          rcases h with h | h <;> (rw [h] at hd; exact absurd hd (by decide))
        simp [stripExp, h1, h2, hsk]
    · simp [stripExp, h1, hne, hsk]
    · simp [stripExp, h1, hne, hsk]

theorem stripExp_sound {s : Bytes} (h : stripExp s = some []) : ExpPart s := by
  unfold stripExp at h
  split at h
  · rename_i c0 c1 rest
    split at h
    · rename_i hc
      have hc' : c0 = c! 'e' ∨ c0 = c! 'E' := by simpa using hc
      split at h
      · rename_i hs
        have hs' : c1 = c! '+' ∨ c1 = c! '-' := by simpa using hs
        split at h
        · simp at h
        · rename_i hr
          obtain ⟨ds, h1, h2⟩ := skipDigits_split rest
          simp only [Option.some.injEq] at h
          rw [h, List.append_nil] at h1
          subst h1
          refine Or.inr ⟨c0, [c1], rest, rfl, hc', ?_, hr, h2⟩
          rcases hs' with rfl | rfl <;> simp
      · obtain ⟨ds, h1, h2⟩ := skipDigits_split (c1 :: rest)
        simp only [Option.some.injEq] at h
        rw [h, List.append_nil] at h1
        exact Or.inr ⟨c0, [], c1 :: rest, rfl, hc', Or.inl rfl, by simp, h1 ▸ h2⟩
    · simp at h
  · simp only [Option.some.injEq] at h
    exact Or.inl h

theorem stripFrac_complete {f e : Bytes} (hf : FracPart f) (he : ExpPart e) :
    stripFrac (f ++ e) = e := by
  rcases hf with rfl | ⟨ds, rfl, hne, hds⟩
  · rcases he with rfl | ⟨c, sg, ds, rfl, hc, hsg, hne, hds⟩
    · rfl
    · have h1 : ¬ c = c! '.' := by rcases hc with rfl | rfl <;> decide
      simp only [List.nil_append, stripFrac]
      split
      · rename_i heq
        simp only [List.cons.injEq] at heq
        rw [if_neg]
        rw [← heq.1]; simp [h1]
      · rfl
  · cases ds with
    | nil => exact absurd rfl hne
    | cons d ds =>
      have hd : isDig d = true := (isDig_iff d).2 (hds d (by simp))
      simp only [List.cons_append, stripFrac, hd]
      simp only [decide_true, Bool.and_self, if_true]
      rw [skipDigits_append ds e (fun c hc => hds c (by simp [hc]))]
      exact skipDigits_nodigit (exp_nodigit he)

theorem stripFrac_sound (s : Bytes) : ∃ f, s = f ++ stripFrac s ∧ FracPart f := by
  unfold stripFrac
  split
  · rename_i c0 c1 rest
    split
    · rename_i h
      have h' : c0 = c! '.' ∧ isDig c1 = true := by simpa using h
      obtain ⟨ds, h1, h2⟩ := skipDigits_split rest
      refine ⟨c0 :: c1 :: ds, ?_, Or.inr ⟨c1 :: ds, ?_, by simp, ?_⟩⟩
      · simp only [List.cons_append]; rw [← h1]
      · rw [h'.1]
      · intro c hc
        rcases List.mem_cons.1 hc with rfl | hc
        · exact (isDig_iff _).1 h'.2
        · exact h2 c hc
    · exact ⟨[], rfl, Or.inl rfl⟩
  · exact ⟨[], rfl, Or.inl rfl⟩

theorem digit19_iff (c : UInt8) : (c! '1' ≤ c && c ≤ c! '9') = true ↔ IsDigit19 c := by
  simp [IsDigit19]

theorem stripInt_complete {i r : Bytes} (hi : IntPart i) (hr : NoDigitHead r) :
    stripInt (i ++ r) = some r := by
  rcases hi with rfl | ⟨d, ds, rfl, hd, hds⟩
  · simp [stripInt]
  · have h0 : ¬ d = c! '0' := by
      rintro rfl
      exact absurd hd (by decide)
    have hd' : (c! '1' ≤ d && d ≤ c! '9') = true := (digit19_iff d).2 hd
    simp only [List.cons_append, stripInt, if_neg h0, hd', if_true]
    rw [skipDigits_append ds r hds, skipDigits_nodigit hr]

theorem stripInt_sound {s r : Bytes} (h : stripInt s = some r) :
    ∃ i, s = i ++ r ∧ IntPart i := by
  unfold stripInt at h
  split at h
  · simp at h
  · rename_i c cs
    split at h
    · rename_i hc
      simp only [Option.some.injEq] at h
      subst hc; subst h
      exact ⟨b! "0", rfl, Or.inl rfl⟩
    · split at h
      · rename_i hc
        simp only [Option.some.injEq] at h
        obtain ⟨ds, h1, h2⟩ := skipDigits_split cs
        subst h
        refine ⟨c :: ds, ?_, Or.inr ⟨c, ds, rfl, (digit19_iff c).1 hc, h2⟩⟩
        simp only [List.cons_append]; rw [← h1]
      · simp at h

theorem int_ne_nil {i : Bytes} (h : IntPart i) : i ≠ [] := by
  rcases h with rfl | ⟨d, ds, rfl, _⟩ <;> simp

theorem int_head_ne_minus {i r : Bytes} (h : IntPart i) : stripMinus (i ++ r) = some (i ++ r) := by
  rcases h with rfl | ⟨d, ds, rfl, hd, _⟩
  · simp [stripMinus]
  · have : ¬ d = c! '-' := by
      rintro rfl
      exact absurd hd (by decide)
    simp [stripMinus, this]

end Jettison.Proofs

