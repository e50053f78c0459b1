import Verif.Proofs.Integer
import Verif.Model.Float

/-! # Lemmas for floats -/

namespace Jettison.Proofs
open Jettison.Spec Jettison.Model

/-! ## Order of bit patterns -/

theorem fields_fabs (w : FWidth) (bits : Nat) :
    expField w (fabs w bits) = expField w bits ∧ mantField w (fabs w bits) = mantField w bits ∧
    fabs w bits = expField w bits * 2 ^ w.mant + mantField w bits := by
  cases w <;> simp only [expField, mantField, fabs, FWidth.mant, FWidth.exp] <;> omega

theorem units_fabs (w : FWidth) (bits : Nat) :
    finiteUnits w (fabs w bits) = finiteUnits w bits := by
  obtain ⟨h1, h2, _⟩ := fields_fabs w bits
  simp only [finiteUnits, h1, h2]

theorem finite_iff (w : FWidth) (bits : Nat) : isNaNOrInf w bits = false ↔ IsFinite w bits := by
  obtain ⟨_, _, h⟩ := fields_fabs w bits
  have h2 : mantField w bits < 2 ^ w.mant := Nat.mod_lt _ (Nat.two_pow_pos _)
  have h3 : expField w bits < 2 ^ w.exp := Nat.mod_lt _ (Nat.two_pow_pos _)
  simp only [isNaNOrInf, IsFinite, decide_eq_false_iff_not, ge_iff_le, Nat.not_le, h]
  cases w <;> simp only [FWidth.mant, FWidth.exp] at * <;> omega

theorem units_lt {w : FWidth} {a b : Nat} (hb : b < 2 ^ (w.mant + w.exp)) (h : a < b) :
    finiteUnits w a < finiteUnits w b := by
  have hM := Nat.two_pow_pos w.mant
  have ha' : fabs w a = a := Nat.mod_eq_of_lt (Nat.lt_trans h hb)
  have hb' : fabs w b = b := Nat.mod_eq_of_lt hb
  obtain ⟨_, _, ea⟩ := fields_fabs w a
  obtain ⟨_, _, eb⟩ := fields_fabs w b
  rw [ha'] at ea; rw [hb'] at eb
  have hma : mantField w a < 2 ^ w.mant := Nat.mod_lt _ hM
  have hmb : mantField w b < 2 ^ w.mant := Nat.mod_lt _ hM
  unfold finiteUnits
  generalize expField w a = xa at *
  generalize expField w b = xb at *
  generalize mantField w a = ya at *
  generalize mantField w b = yb at *
  generalize 2 ^ w.mant = M at *
  have hle : xa ≤ xb := by
    rcases Nat.lt_or_ge xb xa with hlt | hge
    · exfalso
      have : (xb + 1) * M ≤ xa * M := Nat.mul_le_mul_right M hlt
      rw [Nat.add_mul] at this; omega
    · exact hge
  rcases Nat.lt_or_ge xa xb with hlt | hge
  · have hP := Nat.two_pow_pos (xb - 1)
    have h1 : M * 2 ^ (xb - 1) ≤ (M + yb) * 2 ^ (xb - 1) := Nat.mul_le_mul_right _ (by omega)
    rw [if_neg (by omega : ¬ xb = 0)]
    split
    · have : M * 1 ≤ M * 2 ^ (xb - 1) := Nat.mul_le_mul_left M hP
      omega
    · rename_i hx
      have h2 : 2 ^ xa ≤ 2 ^ (xb - 1) := Nat.pow_le_pow_right (by omega) (by omega)
      have h3 : M * 2 ^ xa ≤ M * 2 ^ (xb - 1) := Nat.mul_le_mul_left M h2
      have h4 : (M + ya) * 2 ^ (xa - 1) < (M + M) * 2 ^ (xa - 1) :=
        Nat.mul_lt_mul_of_pos_right (by omega) (Nat.two_pow_pos _)
      have h5 : (M + M) * 2 ^ (xa - 1) = M * 2 ^ xa := by
        obtain ⟨k, rfl⟩ : ∃ k, xa = k + 1 := ⟨xa - 1, by omega⟩
        rw [Nat.add_sub_cancel, Nat.pow_succ, Nat.add_mul, ← Nat.mul_assoc]; omega
      omega
  · have : xa = xb := by omega
    subst this
    split
    · omega
    · exact Nat.mul_lt_mul_of_pos_right (by omega) (Nat.two_pow_pos _)

theorem units_le {w : FWidth} {a b : Nat} (hb : b < 2 ^ (w.mant + w.exp)) (h : a ≤ b) :
    finiteUnits w a ≤ finiteUnits w b := by
  rcases Nat.eq_or_lt_of_le h with rfl | h
  · exact Nat.le_refl _
  · exact Nat.le_of_lt (units_lt hb h)

theorem units_lt_iff {w : FWidth} {a b : Nat} (ha : a < 2 ^ (w.mant + w.exp))
    (hb : b < 2 ^ (w.mant + w.exp)) : finiteUnits w a < finiteUnits w b ↔ a < b := by
  constructor
  · intro h
    rcases Nat.lt_or_ge a b with h1 | h1
    · exact h1
    · have := units_le ha h1; omega
  · exact units_lt hb

theorem units_zero (w : FWidth) : finiteUnits w 0 = 0 := by
  cases w <;> decide +kernel

/-! ## The exponent clean-up -/

theorem getElem?_append_right_offset {α} (p : List α) (x : α) (s : List α) :
    (p ++ x :: s)[p.length]? = some x := by simp

theorem cleanExp_hit (p : Bytes) (d : UInt8) :
    cleanExp (p ++ b! "e-0" ++ [d]) = p ++ b! "e-" ++ [d] := by
  unfold cleanExp
  have hl : (p ++ b! "e-0" ++ [d]).length = p.length + 4 := by simp
  simp only [hl]
  have e1 : (p ++ b! "e-0" ++ [d])[p.length + 4 - 4]? = some (c! 'e') := by simp
  have e2 : (p ++ b! "e-0" ++ [d])[p.length + 4 - 3]? = some (c! '-') := by
    rw [show p.length + 4 - 3 = p.length + 1 by omega]; simp
  have e3 : (p ++ b! "e-0" ++ [d])[p.length + 4 - 2]? = some (c! '0') := by
    rw [show p.length + 4 - 2 = p.length + 2 by omega]; simp
  rw [e1, e2, e3]
  simp only [ge_iff_le, Nat.le_add_left, decide_true, beq_self_eq_true, Bool.and_self, if_true]
  rw [show p.length + 4 - 2 = p.length + 2 by omega, show p.length + 4 - 1 = p.length + 3 by omega]
  rw [List.append_assoc, List.take_append, List.drop_append, List.take_of_length_le (by omega),
    List.drop_of_length_le (by omega), Nat.add_sub_cancel_left, Nat.add_sub_cancel_left]
  simp

/-- The clean-up fires only on a buffer ending in `e-0d`. -/
theorem cleanExp_cases (s : Bytes) :
    cleanExp s = s ∨ ∃ p d, s = p ++ b! "e-0" ++ [d] := by
  simp only [cleanExp]
  split
  · rename_i h
    right
    simp only [ge_iff_le, Bool.and_eq_true, decide_eq_true_eq, beq_iff_eq] at h
    obtain ⟨⟨⟨h0, h1⟩, h2⟩, h3⟩ := h
    obtain ⟨d, h4⟩ : ∃ d, s[s.length - 1]? = some d := by
      cases hs : s[s.length - 1]? with
      | none => simp at hs; omega
      | some d => exact ⟨d, rfl⟩
    refine ⟨s.take (s.length - 4), d, ?_⟩
    conv => lhs; rw [← List.take_append_drop (s.length - 4) s]
    rw [List.append_assoc]
    congr 1
    apply List.ext_getElem?
    intro i
    rw [List.getElem?_drop]
    match i with
    | 0 => simpa using h1
    | 1 => rw [show s.length - 4 + 1 = s.length - 3 by omega]; simpa using h2
    | 2 => rw [show s.length - 4 + 2 = s.length - 2 by omega]; simpa using h3
    | 3 => rw [show s.length - 4 + 3 = s.length - 1 by omega]; simpa using h4
    | i + 4 => simp; omega
  · left; rfl

/-- On a text in exponent form with at least two exponent digits, the clean-up
drops the leading zero of a two-digit negative exponent and changes nothing else. -/
theorem cleanExp_expForm (x esg ds : Bytes) (hs : esg = b! "+" ∨ esg = b! "-")
    (hd : ∀ c ∈ ds, IsDigit c) (hl : 2 ≤ ds.length) :
    (∃ d, esg = b! "-" ∧ ds = [c! '0', d] ∧
      cleanExp (x ++ (c! 'e' :: (esg ++ ds))) = x ++ (c! 'e' :: (b! "-" ++ [d]))) ∨
    (cleanExp (x ++ (c! 'e' :: (esg ++ ds))) = x ++ (c! 'e' :: (esg ++ ds)) ∧
      ¬ ∃ p d, x ++ (c! 'e' :: (esg ++ ds)) = p ++ b! "e-0" ++ [d]) := by
  by_cases hh : ∃ d, esg = b! "-" ∧ ds = [c! '0', d]
  · left
    obtain ⟨d, rfl, rfl⟩ := hh
    exact ⟨d, rfl, rfl, by simpa using cleanExp_hit x d⟩
  · right
    have key : ¬ ∃ p d, x ++ (c! 'e' :: (esg ++ ds)) = p ++ b! "e-0" ++ [d] := by
      rintro ⟨p, d, h⟩
      apply hh
      -- split off the last two digits
      have e1 : ds = ds.take (ds.length - 2) ++ ds.drop (ds.length - 2) :=
        (List.take_append_drop _ _).symm
      have e2 : (ds.drop (ds.length - 2)).length = 2 := by simp; omega
      generalize hu : ds.take (ds.length - 2) = u at *
      generalize ds.drop (ds.length - 2) = v at *
      subst e1
      have h' : (x ++ (c! 'e' :: (esg ++ u))) ++ v = (p ++ b! "e-") ++ [c! '0', d] := by
        simpa using h
      obtain ⟨h1, h2⟩ := List.append_inj' h' (by simp [e2])
      rcases List.eq_nil_or_concat u with rfl | ⟨u', z, rfl⟩
      · refine ⟨d, ?_, by simpa using h2⟩
        have h3 : (x ++ [c! 'e']) ++ esg = (p ++ b! "e") ++ b! "-" := by simpa using h1
        have h4 : esg.length = 1 := by rcases hs with rfl | rfl <;> rfl
        exact (List.append_inj' h3 (by simp [h4])).2
      · exfalso
        have h3 : (x ++ (c! 'e' :: (esg ++ u'))) ++ [z] = (p ++ b! "e") ++ b! "-" := by
          simpa using h1
        have h4 : [z] = b! "-" := (List.append_inj' h3 (by simp)).2
        have h5 := hd z (by simp)
        rw [List.cons.inj h4 |>.1] at h5
        exact absurd h5 (by decide)
    refine ⟨?_, key⟩
    rcases cleanExp_cases (x ++ (c! 'e' :: (esg ++ ds))) with h | h
    · exact h
    · exact absurd h key

/-! ## Literals -/

theorem numDenotes_isNumber {s : Bytes} {m e : Int} (h : NumDenotes s m e) : IsNumber s := by
  obtain ⟨sg, i, f, h1, h2, h3, _, ⟨rfl, _⟩ | ⟨c, esg, ds, hc, he, hd, rfl, _⟩⟩ := h
  · exact ⟨sg, i, f, [], by simp, h1, h2, h3, Or.inl rfl⟩
  · exact ⟨sg, i, f, _, rfl, h1, h2, h3, Or.inr ⟨c, esg, ds, rfl, hc, he, hd⟩⟩

theorem isNumber_denotes {s : Bytes} (h : IsNumber s) : ∃ m e, NumDenotes s m e := by
  obtain ⟨sg, i, f, e, rfl, h1, h2, h3, rfl | ⟨c, esg, ds, rfl, hc, he, hd⟩⟩ := h
  · exact ⟨_, _, sg, i, f, h1, h2, h3, rfl, Or.inl ⟨by simp, rfl⟩⟩
  · exact ⟨_, _, sg, i, f, h1, h2, h3, rfl, Or.inr ⟨c, esg, ds, hc, he, hd, rfl, rfl⟩⟩

theorem number_parts_unique {sg sg' i i' f f' e e' : Bytes}
    (h : sg ++ (i ++ (f ++ e)) = sg' ++ (i' ++ (f' ++ e')))
    (h1 : sg = [] ∨ sg = b! "-") (h1' : sg' = [] ∨ sg' = b! "-")
    (h2 : IntPart i) (h2' : IntPart i') (h3 : FracPart f) (h3' : FracPart f')
    (h4 : ExpPart e) (h4' : ExpPart e') : sg = sg' ∧ i = i' ∧ f = f' ∧ e = e' := by
  have m : ∀ {sg i f e : Bytes}, (sg = [] ∨ sg = b! "-") → IntPart i →
      stripMinus (sg ++ (i ++ (f ++ e))) = some (i ++ (f ++ e)) := by
    intro sg i f e h1 h2
    rcases h1 with rfl | rfl
    · simpa using int_head_ne_minus (r := f ++ e) h2
    · simp [stripMinus, int_ne_nil h2]
  have e1 := m (f := f) (e := e) h1 h2
  rw [h, m h1' h2'] at e1
  have e2 : i ++ (f ++ e) = i' ++ (f' ++ e') := (Option.some.inj e1).symm
  have e3 := stripInt_complete h2 (frac_nodigit h3 h4)
  rw [e2, stripInt_complete h2' (frac_nodigit h3' h4')] at e3
  have e4 : f ++ e = f' ++ e' := (Option.some.inj e3).symm
  have e5 := stripFrac_complete h3 h4
  rw [e4, stripFrac_complete h3' h4'] at e5
  subst e5
  have e6 := List.append_cancel_right e4
  subst e6
  have e7 := List.append_cancel_right e2
  subst e7
  exact ⟨List.append_cancel_right h, rfl, rfl, rfl⟩

theorem exp_parts_unique {esg esg' ds ds' : Bytes} (h : esg ++ ds = esg' ++ ds')
    (h1 : esg = [] ∨ esg = b! "+" ∨ esg = b! "-") (h1' : esg' = [] ∨ esg' = b! "+" ∨ esg' = b! "-")
    (h2 : Digits1 ds) (h2' : Digits1 ds') : esg = esg' ∧ ds = ds' := by
  have np : ∀ {ds : Bytes} {t}, Digits1 ds → ds ≠ c! '+' :: t ∧ ds ≠ c! '-' :: t := by
    intro ds t ⟨_, h⟩
    constructor
    · rintro rfl
      exact absurd (h (c! '+') (by simp)) (by decide)
    · rintro rfl
      exact absurd (h (c! '-') (by simp)) (by decide)
  rcases h1 with rfl | rfl | rfl <;> rcases h1' with rfl | rfl | rfl <;> simp at h
  · exact ⟨rfl, h⟩
  · exact absurd h (np h2).1
  · exact absurd h (np h2).2
  · exact absurd h.symm (np h2').1
  · exact ⟨rfl, h⟩
  · exact absurd h.symm (np h2').2
  · exact ⟨rfl, h⟩

/-- A literal denotes only one decimal. -/
theorem numDenotes_functional {s : Bytes} {m e m' e' : Int} (h : NumDenotes s m e)
    (h' : NumDenotes s m' e') : m = m' ∧ e = e' := by
  obtain ⟨sg, i, f, h1, h2, h3, rfl, hs⟩ := h
  obtain ⟨sg', i', f', h1', h2', h3', rfl, hs'⟩ := h'
  have norm : ∀ {sg i f : Bytes} {e : Int}, ((s = sg ++ (i ++ f) ∧ e = -((fracDigits f).length : Int)) ∨
     ∃ c esg ds, (c = c! 'e' ∨ c = c! 'E') ∧ (esg = [] ∨ esg = b! "+" ∨ esg = b! "-") ∧
       Digits1 ds ∧ s = sg ++ (i ++ (f ++ (c :: (esg ++ ds)))) ∧
       e = signedVal esg ds - ((fracDigits f).length : Int)) →
      ∃ x, ExpPart x ∧ s = sg ++ (i ++ (f ++ x)) ∧
        ((x = [] ∧ e = -((fracDigits f).length : Int)) ∨
         ∃ c esg ds, (esg = [] ∨ esg = b! "+" ∨ esg = b! "-") ∧
           Digits1 ds ∧ x = c :: (esg ++ ds) ∧ e = signedVal esg ds - ((fracDigits f).length : Int)) := by
    rintro sg i f e (⟨a, b⟩ | ⟨c, esg, ds, hc, he, hd, hs, hv⟩)
    · exact ⟨[], Or.inl rfl, by simpa using a, Or.inl ⟨rfl, b⟩⟩
    · exact ⟨_, Or.inr ⟨c, esg, ds, rfl, hc, he, hd⟩, hs, Or.inr ⟨c, esg, ds, he, hd, rfl, hv⟩⟩
  obtain ⟨x, hx, ex, hx'⟩ := norm hs
  obtain ⟨y, hy, ey, hy'⟩ := norm hs'
  obtain ⟨a1, a2, a3, a4⟩ := number_parts_unique (ex ▸ ey) h1 h1' h2 h2' h3 h3' hx hy
  subst a1; subst a2; subst a3; subst a4
  refine ⟨rfl, ?_⟩
  rcases hx' with ⟨b1, b2⟩ | ⟨c, esg, ds, he, hd, b1, b2⟩ <;>
    rcases hy' with ⟨c1, c2⟩ | ⟨c', esg', ds', he', hd', c1, c2⟩
  · omega
  · rw [b1] at c1; simp at c1
  · rw [c1] at b1; simp at b1
  · rw [b1] at c1
    simp only [List.cons.injEq] at c1
    obtain ⟨d1, d2⟩ := exp_parts_unique c1.2 he he' hd hd'
    subst d1; subst d2
    omega

end Jettison.Proofs
