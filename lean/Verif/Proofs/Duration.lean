import Verif.Proofs.Integer
import Verif.Proofs.Unescape
import Verif.Spec.Duration
import Verif.Spec.Calendar
import Verif.Model.Duration

/-! # Lemmas for durations -/

namespace Jettison.Proofs
open Jettison.Spec Jettison.Model

/-- The scratch area has its 32 bytes and its written tail is `t`. -/
def InScratch (s : Scratch) (t : Bytes) : Prop :=
  s.buf.length = 32 ∧ s.buf.drop s.w = t ∧ s.w + t.length = 32

theorem holds_init : InScratch Scratch.init [] := ⟨rfl, rfl, rfl⟩

theorem drop_set_pred (l : Bytes) (w : Nat) (c : UInt8) (h : 0 < w) (hw : w ≤ l.length) :
    (l.set (w - 1) c).drop (w - 1) = c :: l.drop w := by
  apply List.ext_getElem?
  intro i
  cases i with
  | zero => simp [List.getElem?_set]; omega
  | succ i =>
    rw [List.getElem?_drop, List.getElem?_cons_succ, List.getElem?_drop, List.getElem?_set_ne (by omega)]
    congr 1; omega

theorem put_holds {s : Scratch} {t : Bytes} (c : UInt8) (h : InScratch s t) (hl : t.length < 32) :
    ∃ s', s.put c = some s' ∧ InScratch s' (c :: t) := by
  obtain ⟨h1, h2, h3⟩ := h
  have hw : ¬ s.w = 0 := by omega
  refine ⟨⟨s.buf.set (s.w - 1) c, s.w - 1⟩, by simp [Scratch.put, hw], by simp [h1], ?_, ?_⟩
  · simp only; rw [drop_set_pred _ _ _ (by omega) (by omega), h2]
  · simp only [List.length_cons]; omega

theorem digit_comm (n : Nat) (h : n < 10) : UInt8.ofNat n + 48 = UInt8.ofNat (48 + n) := by
  apply UInt8.toNat_inj.1
  rw [digit_byte h, UInt8.toNat_add, UInt8.toNat_ofNat']
  simp; omega

theorem fmtNat_length_le (n k : Nat) (hk : 0 < k) (h : n < 10 ^ k) : (fmtNat n).length ≤ k := by
  induction k generalizing n with
  | zero => omega
  | succ k ih =>
    rw [fmtNat_eq]
    split
    · simp
    · rename_i h10
      by_cases hk0 : k = 0
      · subst hk0; simp at h; omega
      · have := ih (n / 10) (by omega) (by rw [Nat.pow_succ] at h; omega)
        simp; omega

theorem fmtIntLoop_spec (fuel v : Nat) (s : Scratch) (t : Bytes) (h : InScratch s t) (hf : v ≤ fuel)
    (hv : 0 < v) (hl : (fmtNat v).length + t.length ≤ 32) :
    ∃ s', fmtIntLoop fuel s v = some s' ∧ InScratch s' (fmtNat v ++ t) := by
  induction fuel generalizing v s t with
  | zero => omega
  | succ fuel ih =>
    have hv' : v > 0 := hv
    simp only [fmtIntLoop, if_pos hv']
    have hne := fmtNat_ne_nil v
    have : 0 < (fmtNat v).length := List.length_pos_iff.2 hne
    obtain ⟨s1, h1, h2⟩ := put_holds (UInt8.ofNat (v % 10) + 48) h (by omega)
    rw [h1]
    simp only [Option.bind_eq_bind, Option.bind_some]
    rw [digit_comm _ (by omega)] at h2
    by_cases h10 : v < 10
    · have hz : v / 10 = 0 := by omega
      rw [hz]
      refine ⟨s1, by cases fuel <;> simp [fmtIntLoop], ?_⟩
      rw [fmtNat_eq, if_pos h10]
      rw [Nat.mod_eq_of_lt h10] at h2
      exact h2
    · rw [fmtNat_eq, if_neg h10] at hl ⊢
      simp only [List.length_append, List.length_cons, List.length_nil] at hl
      obtain ⟨s2, h3, h4⟩ := ih (v / 10) s1 _ h2 (by omega) (by omega)
        (by simp only [List.length_cons]; omega)
      exact ⟨s2, h3, by simpa using h4⟩

theorem fmtInt_spec {s : Scratch} {t : Bytes} (v : Nat) (h : InScratch s t)
    (hl : (fmtNat v).length + t.length ≤ 32) :
    ∃ s', fmtInt s v = some s' ∧ InScratch s' (fmtNat v ++ t) := by
  unfold fmtInt
  split
  · rename_i hv
    subst hv
    have h0 : fmtNat 0 = [c! '0'] := by decide +kernel
    rw [h0] at hl ⊢
    simp only [List.length_cons, List.length_nil] at hl
    have ht : t.length < 32 := by omega
    exact put_holds (c! '0') h ht
  · exact fmtIntLoop_spec v v s t h (Nat.le_refl _) (by omega) hl

theorem digitsVal_foldl (ds : Bytes) (n : Nat) :
    ds.foldl (fun n c => 10 * n + (c.toNat - 48)) n = n * 10 ^ ds.length + digitsVal ds := by
  induction ds generalizing n with
  | nil => simp [digitsVal]
  | cons c cs ih =>
    simp only [digitsVal, List.foldl_cons, List.length_cons]
    rw [ih, ih, Nat.pow_succ]
    simp only [Nat.mul_zero, Nat.zero_add, Nat.add_mul]
    rw [Nat.mul_comm 10 n, Nat.mul_assoc n, Nat.mul_comm 10]
    omega

theorem digitsVal_cons (c : UInt8) (ds : Bytes) :
    digitsVal (c :: ds) = (c.toNat - 48) * 10 ^ ds.length + digitsVal ds := by
  have := digitsVal_foldl ds (10 * 0 + (c.toNat - 48))
  rw [Nat.mul_zero, Nat.zero_add] at this
  rw [← this]
  simp [digitsVal]

theorem digitsVal_append' (a b : Bytes) :
    digitsVal (a ++ b) = digitsVal a * 10 ^ b.length + digitsVal b := by
  unfold digitsVal
  rw [List.foldl_append, digitsVal_foldl]
  rfl

/-- Invariant of the fraction loop: after `i` rounds the tail starts with the digits
`ds`, which stand for `v mod 10^i`, and the last of them is not zero. -/
theorem fmtFracLoop_spec (n i v0 : Nat) (s : Scratch) (ds t : Bytes) (h : InScratch s (ds ++ t))
    (hl : n + ds.length + t.length ≤ 32) (hd : FracVal ds i (v0 % 10 ^ i))
    (hlast : ds = [] ∨ ∃ a d, ds = a ++ [d] ∧ d ≠ c! '0') :
    ∃ s' ds', fmtFracLoop n s (v0 / 10 ^ i) (!ds.isEmpty) =
        some (s', v0 / 10 ^ (i + n), !ds'.isEmpty) ∧
      InScratch s' (ds' ++ t) ∧ FracVal ds' (i + n) (v0 % 10 ^ (i + n)) ∧ ds'.length ≤ n + ds.length ∧
      (ds' = [] ∨ ∃ a d, ds' = a ++ [d] ∧ d ≠ c! '0') := by
  induction n generalizing i s ds with
  | zero => exact ⟨s, ds, by simp [fmtFracLoop], h, by simpa using hd, by omega, hlast⟩
  | succ n ih =>
    have hmod : v0 % 10 ^ (i + 1) = v0 % 10 ^ i + 10 ^ i * (v0 / 10 ^ i % 10) := by
      rw [Nat.pow_succ, Nat.mod_mul]
    have hdiv : v0 / 10 ^ i / 10 = v0 / 10 ^ (i + 1) := by
      rw [Nat.pow_succ, Nat.div_div_eq_div_mul]
    simp only [fmtFracLoop]
    obtain ⟨d1, d2, d3⟩ := hd
    by_cases hp : (!ds.isEmpty || (v0 / 10 ^ i % 10 != 0)) = true
    · rw [hp]
      simp only [Scratch.putIf, if_true]
      obtain ⟨s1, h1, h2⟩ := put_holds (UInt8.ofNat (v0 / 10 ^ i % 10) + 48) h (by simp; omega)
      rw [digit_comm _ (Nat.mod_lt _ (by omega))] at h2
      rw [h1]
      simp only [Option.bind_eq_bind, Option.bind_some]
      have hb : UInt8.toNat (UInt8.ofNat (48 + v0 / 10 ^ i % 10)) = 48 + v0 / 10 ^ i % 10 :=
        digit_byte (Nat.mod_lt _ (by omega))
      have := ih (i + 1) s1 (UInt8.ofNat (48 + v0 / 10 ^ i % 10) :: ds) h2
        (by simp only [List.length_cons]; omega)
        (by
          refine ⟨?_, by simp only [List.length_cons]; omega, ?_⟩
          · intro c hc
            rcases List.mem_cons.1 hc with rfl | hc
            · exact isDigit_digit (Nat.mod_lt _ (by omega))
            · exact d1 c hc
          · simp only [List.length_cons]
            rw [Nat.add_sub_add_right, digitsVal_cons, Nat.add_mul, d3, hb, hmod,
              Nat.add_sub_cancel_left, Nat.mul_assoc, ← Nat.pow_add,
              Nat.add_sub_cancel' d2, Nat.mul_comm (10 ^ i)]
            omega)
        (by
          right
          rcases hlast with rfl | ⟨a, d, rfl, hd⟩
          · refine ⟨[], UInt8.ofNat (48 + v0 / 10 ^ i % 10), rfl, ?_⟩
            simp at hp
            intro hc
            rw [hc] at hb
            simp at hb
            omega
          · exact ⟨UInt8.ofNat (48 + v0 / 10 ^ i % 10) :: a, d, by simp, hd⟩)
      rw [hdiv]
      obtain ⟨s', ds', e1, e2, e3, e4, e5⟩ := this
      refine ⟨s', ds', ?_, e2, ?_, ?_, e5⟩
      · rw [show i + (n + 1) = i + 1 + n by omega]; simpa using e1
      · rw [show i + (n + 1) = i + 1 + n by omega]; exact e3
      · simp only [List.length_cons] at e4; omega
    · have hp' : (!ds.isEmpty || (v0 / 10 ^ i % 10 != 0)) = false := by simpa using hp
      rw [hp']
      simp only [Bool.or_eq_false_iff, Bool.not_eq_false', List.isEmpty_iff, bne_eq_false_iff_eq] at hp'
      obtain ⟨rfl, hz⟩ := hp'
      simp only [Scratch.putIf, Bool.false_eq_true, if_false, Option.bind_eq_bind, Option.bind_some]
      have := ih (i + 1) s [] h (by simp at hl ⊢; omega)
        ⟨by simp, by simp, by rw [hmod, hz, ← d3]; simp [digitsVal]⟩ (Or.inl rfl)
      rw [hdiv]
      obtain ⟨s', ds', e1, e2, e3, e4, e5⟩ := this
      refine ⟨s', ds', ?_, e2, ?_, ?_, e5⟩
      · rw [show i + (n + 1) = i + 1 + n by omega]; simpa using e1
      · rw [show i + (n + 1) = i + 1 + n by omega]; exact e3
      · omega

theorem fmtFrac_spec {s : Scratch} {t : Bytes} (v p : Nat) (h : InScratch s t)
    (hl : p + 1 + t.length ≤ 32) :
    ∃ s' f, fmtFrac s v p = some (s', v / 10 ^ p) ∧ InScratch s' (f ++ t) ∧ f.length ≤ p + 1 ∧
      FracText f p (v % 10 ^ p) := by
  obtain ⟨s1, ds, h1, h2, h3, h4, h5⟩ := fmtFracLoop_spec p 0 v s [] t h (by simp; omega)
    ⟨by simp, by simp, by simp [digitsVal, Nat.mod_one]⟩ (Or.inl rfl)
  simp only [Nat.pow_zero, Nat.div_one, Nat.zero_add, List.isEmpty_nil, Bool.not_true] at h1 h3
  unfold fmtFrac
  rw [h1]
  simp only [Option.bind_eq_bind, Option.bind_some, List.length_nil] at h4 ⊢
  rcases h5 with rfl | ⟨a, d, rfl, hd⟩
  · refine ⟨s1, [], by simp [Scratch.putIf], h2, by simp, Or.inl ⟨rfl, ?_⟩⟩
    simpa [digitsVal] using h3.2.2.symm
  · obtain ⟨s2, e1, e2⟩ := put_holds (c! '.') h2 (by simp only [List.length_append] at *; omega)
    have hne : (!(a ++ [d]).isEmpty) = true := by simp
    rw [hne]
    simp only [Scratch.putIf, if_true, e1]
    refine ⟨s2, c! '.' :: (a ++ [d]), rfl, e2, by simp only [List.length_cons]; omega,
      Or.inr ⟨a, d, rfl, hd, h3⟩⟩

/-! ## Reading back -/

theorem takeWhile_append_of {p : UInt8 → Bool} (a b : Bytes) (ha : ∀ c ∈ a, p c = true)
    (hb : ∀ c cs, b = c :: cs → p c = false) :
    (a ++ b).takeWhile p = a ∧ (a ++ b).dropWhile p = b := by
  induction a with
  | nil =>
    cases b with
    | nil => simp
    | cons c cs => simp [hb c cs rfl]
  | cons x xs ih =>
    obtain ⟨h1, h2⟩ := ih (fun c hc => ha c (by simp [hc]))
    simp [ha x (by simp), h1, h2]

theorem dig_iff (c : UInt8) : dig c = true ↔ IsDigit c := by simp [dig]

/-- Reading one component followed by more components or the end. -/
theorem readComps_step (fuel : Nat) (i f u rest : Bytes) (p r U : Nat)
    (hi : i ≠ []) (hid : ∀ c ∈ i, IsDigit c) (hf : FracText f p r)
    (hu : ∀ c ∈ u, unitByte c = true) (hu0 : u ≠ []) (hU : unitNs u = some U) (hp : U = 10 ^ p * (U / 10 ^ p))
    (hr : ∀ c cs, rest = c :: cs → IsDigit c) :
    readComps (fuel + 1) (i ++ (f ++ (u ++ rest))) =
      if rest = [] then some (digitsVal i * U + r * (U / 10 ^ p))
      else (readComps fuel rest).map (digitsVal i * U + r * (U / 10 ^ p) + ·) := by
  have hdot : dig (c! '.') = false := by decide
  have hur : ∀ c cs, u ++ rest = c :: cs → dig c = false ∧ c ≠ c! '.' := by
    intro c cs h
    cases u with
    | nil => exact absurd rfl hu0
    | cons x xs =>
      simp only [List.cons_append, List.cons.injEq] at h
      have := hu x (by simp)
      rw [h.1] at this
      simp only [unitByte, Bool.and_eq_true, Bool.not_eq_true', bne_iff_ne] at this
      exact this
  have hfur : ∀ c cs, f ++ (u ++ rest) = c :: cs → dig c = false := by
    intro c cs h
    rcases hf with ⟨rfl, _⟩ | ⟨a, d, rfl, _⟩
    · exact (hur c cs h).1
    · simp only [List.cons_append, List.cons.injEq] at h
      rw [← h.1]; exact hdot
  obtain ⟨w1, w2⟩ := takeWhile_append_of (p := dig) i (f ++ (u ++ rest))
    (fun c hc => (dig_iff c).2 (hid c hc)) hfur
  obtain ⟨w3, w4⟩ := takeWhile_append_of (p := unitByte) u rest hu (by
    intro c cs h
    simp [unitByte, (dig_iff c).2 (hr c cs h)])
  have hfr : ∃ ds, readFrac (f ++ (u ++ rest)) = (ds, u ++ rest) ∧ FracVal ds p r := by
    rcases hf with ⟨rfl, rfl⟩ | ⟨a, d, rfl, _, hv⟩
    · refine ⟨[], ?_, by simp, by simp, by simp [digitsVal]⟩
      simp only [List.nil_append]
      cases hc : u ++ rest with
      | nil => rfl
      | cons c cs => simp [readFrac, (hur c cs hc).2]
    · refine ⟨a ++ [d], ?_, hv⟩
      obtain ⟨w5, w6⟩ := takeWhile_append_of (p := dig) (a ++ [d]) (u ++ rest)
        (fun c hc => (dig_iff c).2 (hv.1 c hc)) (fun c cs h => (hur c cs h).1)
      simp only [List.cons_append, readFrac, if_true, w5, w6]
  obtain ⟨ds, hds, v1, v2, v3⟩ := hfr
  rw [readComps]
  simp only [w1, w2, hds, w3, w4, hU, hi, false_and, if_false]
  have hval : digitsVal (i ++ ds) * U =
      (digitsVal i * U + r * (U / 10 ^ p)) * 10 ^ ds.length := by
    rw [digitsVal_append', ← v3, Nat.add_mul, Nat.add_mul, Nat.mul_right_comm]
    congr 1
    conv => lhs; rw [hp]
    rw [← Nat.mul_assoc, show 10 ^ p = 10 ^ (p - ds.length) * 10 ^ ds.length by
      rw [← Nat.pow_add]; congr 1; omega]
    rw [Nat.mul_right_comm _ (U / _), Nat.mul_assoc (digitsVal ds)]
    simp only [Nat.mul_assoc]
  rw [hval, Nat.mul_mod_left]
  simp only [ne_eq, not_true, if_false]
  rw [Nat.mul_div_cancel _ (Nat.pow_pos (by omega))]

/-- The absolute value computed with wrapping negation. -/
theorem absU (d : Int64) :
    ((if decide (d < 0) then -d.toUInt64 else d.toUInt64).toNat : Int) =
      if d < 0 then -d.toInt else d.toInt := by
  have h2 := Int64.toInt_lt d
  have h3 := Int64.le_toInt d
  have h4 : d.toInt = (d.toUInt64.toNat : Int).bmod (2^64) := by
    rw [← Int64.toNat_toBitVec, ← BitVec.toInt_eq_toNat_bmod]; rfl
  have h5 : d.toUInt64.toNat < 2^64 := UInt64.toNat_lt _
  by_cases h : d < 0
  · simp only [h, decide_true, if_true, UInt64.toNat_neg, UInt64.size]
    rw [Int64.lt_iff_toInt_lt, Int64.toInt_zero] at h
    simp only [Int.bmod_def] at h4
    split at h4 <;> omega
  · simp only [h, decide_false, Bool.false_eq_true, if_false]
    rw [Int64.lt_iff_toInt_lt, Int64.toInt_zero] at h
    simp only [Int.bmod_def] at h4
    split at h4 <;> omega

/-- The unsigned text of a duration of `u` nanoseconds, as documented for
`time.Duration.String`. -/
inductive DurText : Nat → Bytes → Prop
  | zero : DurText 0 (b! "0s")
  | small (u p : Nat) (f unit : Bytes) : 0 < u →
      (p = 0 ∧ unit = b! "ns" ∧ u < 1000 ∨ p = 3 ∧ unit = b! "µs" ∧ 1000 ≤ u ∧ u < 1000000 ∨
       p = 6 ∧ unit = b! "ms" ∧ 1000000 ≤ u ∧ u < 1000000000) →
      FracText f p (u % 10 ^ p) → DurText u (fmtNat (u / 10 ^ p) ++ (f ++ unit))
  | secs (u : Nat) (f : Bytes) : 1000000000 ≤ u → u < 60000000000 →
      FracText f 9 (u % 10 ^ 9) → DurText u (fmtNat (u / 10 ^ 9 % 60) ++ (f ++ b! "s"))
  | mins (u : Nat) (f : Bytes) : 60000000000 ≤ u → u < 3600000000000 →
      FracText f 9 (u % 10 ^ 9) →
      DurText u (fmtNat (u / 10 ^ 9 / 60 % 60) ++ (b! "m" ++
        (fmtNat (u / 10 ^ 9 % 60) ++ (f ++ b! "s"))))
  | hours (u : Nat) (f : Bytes) : 3600000000000 ≤ u →
      FracText f 9 (u % 10 ^ 9) →
      DurText u (fmtNat (u / 10 ^ 9 / 60 / 60) ++ (b! "h" ++ (fmtNat (u / 10 ^ 9 / 60 % 60) ++ (b! "m" ++
        (fmtNat (u / 10 ^ 9 % 60) ++ (f ++ b! "s"))))))

theorem durText_len {u : Nat} {t : Bytes} (hu : u ≤ 2 ^ 63) (h : DurText u t) : t.length < 32 := by
  have fl : ∀ {f p r}, FracText f p r → f.length ≤ p + 1 := by
    rintro f p r (⟨rfl, _⟩ | ⟨a, d, rfl, _, h⟩)
    · simp
    · have := h.2.1; simp at this ⊢; omega
  cases h with
  | zero => decide
  | small _ p f unit h0 h1 h2 =>
    have := fl h2
    rcases h1 with ⟨rfl, rfl, h⟩ | ⟨rfl, rfl, h⟩ | ⟨rfl, rfl, h⟩
    · have := fmtNat_length_le (u / 10 ^ 0) 3 (by omega) (by omega)
      simp only [List.length_append, List.length_cons, List.length_nil]; omega
    · have := fmtNat_length_le (u / 10 ^ 3) 3 (by omega) (by omega)
      simp only [List.length_append, List.length_cons, List.length_nil]; omega
    · have := fmtNat_length_le (u / 10 ^ 6) 3 (by omega) (by omega)
      simp only [List.length_append, List.length_cons, List.length_nil]; omega
  | secs _ f h0 h1 h2 =>
    have := fl h2
    have := fmtNat_length_le (u / 10 ^ 9 % 60) 2 (by omega) (by omega)
    simp only [List.length_append, List.length_cons, List.length_nil]; omega
  | mins _ f h0 h1 h2 =>
    have := fl h2
    have := fmtNat_length_le (u / 10 ^ 9 % 60) 2 (by omega) (by omega)
    have := fmtNat_length_le (u / 10 ^ 9 / 60 % 60) 2 (by omega) (by omega)
    simp only [List.length_append, List.length_cons, List.length_nil]; omega
  | hours _ f h0 h2 =>
    have := fl h2
    have := fmtNat_length_le (u / 10 ^ 9 % 60) 2 (by omega) (by omega)
    have := fmtNat_length_le (u / 10 ^ 9 / 60 % 60) 2 (by omega) (by omega)
    have := fmtNat_length_le (u / 10 ^ 9 / 60 / 60) 7 (by omega) (by omega)
    simp only [List.length_append, List.length_cons, List.length_nil]; omega

theorem sign_holds {s : Scratch} {t : Bytes} (n : Bool) (h : InScratch s t) (hl : t.length < 32) :
    ∃ s', (s.putIf n (c! '-')) = some s' ∧
      InScratch s' ((if n then b! "-" else []) ++ t) := by
  cases n with
  | false => exact ⟨s, rfl, h⟩
  | true => exact put_holds _ h hl

/-- The scratch area always suffices, and the text is the documented one. -/
theorem appendDuration_text (dst : Bytes) (d : Int64) :
    ∃ t, appendDuration dst d = some (dst ++ ((if d < 0 then b! "-" else []) ++ t)) ∧
      DurText d.toInt.natAbs t := by
  have hu := absU d
  have hr1 := Int64.toInt_lt d
  have hr2 := Int64.le_toInt d
  have hu' : (if decide (d < 0) then -d.toUInt64 else d.toUInt64).toNat = d.toInt.natAbs := by
    by_cases h : d < 0
    · rw [if_pos h] at hu
      rw [Int64.lt_iff_toInt_lt, Int64.toInt_zero] at h
      omega
    · rw [if_neg h] at hu
      rw [Int64.lt_iff_toInt_lt, Int64.toInt_zero] at h
      omega
  unfold appendDuration
  simp only [hu']
  have hub : d.toInt.natAbs ≤ 2 ^ 63 := by omega
  generalize hn : d.toInt.natAbs = u at hub
  have hsign : (if decide (d < 0) = true then b! "-" else []) = (if d < 0 then b! "-" else []) := by
    simp
  have fin : ∀ (s : Scratch) (t : Bytes), InScratch s t → DurText u t →
      ∃ s', (s.putIf (decide (d < 0)) (c! '-')) = some s' ∧
        s'.buf.drop s'.w = (if d < 0 then b! "-" else []) ++ t := by
    intro s t h ht
    obtain ⟨s', h1, h2⟩ := sign_holds (decide (d < 0)) h (durText_len hub ht)
    exact ⟨s', h1, by rw [h2.2.1, hsign]⟩
  obtain ⟨s1, a1, a2⟩ := put_holds (c! 's') holds_init (by decide)
  by_cases hlt : u < 1000000000
  · rw [if_pos hlt, a1]
    simp only [Option.bind_eq_bind, Option.bind_some]
    by_cases h0 : u = 0
    · refine ⟨b! "0s", ?_, by rw [h0]; exact DurText.zero⟩
      have : ¬ d < 0 := by
        rw [Int64.lt_iff_toInt_lt, Int64.toInt_zero]; omega
      simp [h0, this]
    · simp only [if_neg h0]
      have small : ∀ (p : Nat) (unit : Bytes) (s2 : Scratch), InScratch s2 unit → unit.length ≤ 3 →
          (p = 0 ∧ unit = b! "ns" ∧ u < 1000 ∨ p = 3 ∧ unit = b! "µs" ∧ 1000 ≤ u ∧ u < 1000000 ∨
            p = 6 ∧ unit = b! "ms" ∧ 1000000 ≤ u ∧ u < 1000000000) →
          ∃ t, ((fmtFrac s2 u p).bind fun x =>
              (fmtInt x.1 x.2).bind fun s =>
                (s.putIf (decide (d < 0)) (c! '-')).bind fun s =>
                  some (dst ++ s.buf.drop s.w)) =
              some (dst ++ ((if d < 0 then b! "-" else []) ++ t)) ∧ DurText u t := by
        intro p unit s2 h2 hl hcase
        have hp : p ≤ 6 := by omega
        obtain ⟨s3, f, b1, b2, b3, b4⟩ := fmtFrac_spec u p h2 (by omega)
        have hlen : (fmtNat (u / 10 ^ p)).length ≤ 3 := by
          rcases hcase with ⟨rfl, _, h⟩ | ⟨rfl, _, h⟩ | ⟨rfl, _, h⟩ <;>
            exact fmtNat_length_le _ 3 (by omega) (by omega)
        obtain ⟨s4, c1, c2⟩ := fmtInt_spec (u / 10 ^ p) b2 (by simp; omega)
        have ht : DurText u _ := DurText.small u p f unit (by omega) hcase b4
        obtain ⟨s5, d1, d2⟩ := fin s4 _ c2 ht
        refine ⟨_, ?_, ht⟩
        rw [b1]; simp only [Option.bind_some]
        rw [c1]; simp only [Option.bind_some]
        rw [d1]; simp only [Option.bind_some, d2]
      by_cases h1 : u < 1000
      · obtain ⟨s2, e1, e2⟩ := put_holds (c! 'n') a2 (by decide)
        simp only [putSmallUnit, Option.bind_eq_bind, if_pos h1, e1, Option.bind_some, Option.pure_def]
        exact small 0 _ s2 e2 (by decide) (Or.inl ⟨rfl, rfl, h1⟩)
      · by_cases h2 : u < 1000000
        · obtain ⟨s2, e1, e2⟩ := put_holds 0xB5 a2 (by decide)
          obtain ⟨s3, e3, e4⟩ := put_holds 0xC2 e2 (by decide)
          simp only [putSmallUnit, Option.bind_eq_bind, if_neg h1, if_pos h2, e1, e3, Option.bind_some, Option.pure_def]
          exact small 3 _ s3 e4 (by decide) (Or.inr (Or.inl ⟨rfl, rfl, by omega, h2⟩))
        · obtain ⟨s2, e1, e2⟩ := put_holds (c! 'm') a2 (by decide)
          simp only [putSmallUnit, Option.bind_eq_bind, if_neg h1, if_neg h2, e1, Option.bind_some, Option.pure_def]
          exact small 6 _ s2 e2 (by decide) (Or.inr (Or.inr ⟨rfl, rfl, by omega, hlt⟩))
  · rw [if_neg hlt, a1]
    simp only [Option.bind_eq_bind, Option.bind_some]
    obtain ⟨s3, f, b1, b2, b3, b4⟩ := fmtFrac_spec u 9 a2 (by decide)
    rw [b1]; simp only [Option.bind_some]
    have hl1 := fmtNat_length_le (u / 10 ^ 9 % 60) 2 (by omega) (by omega)
    obtain ⟨s4, c1, c2⟩ := fmtInt_spec (u / 10 ^ 9 % 60) b2 (by
      simp only [List.length_append, List.length_cons, List.length_nil]; omega)
    rw [c1]; simp only [Option.bind_some]
    by_cases hm : u / 10 ^ 9 / 60 > 0
    · have hm' := hm
      simp only [fmtMinHour, Option.bind_eq_bind, if_pos hm]
      obtain ⟨s5, d1, d2⟩ := put_holds (c! 'm') c2 (by
        simp only [List.length_append, List.length_cons, List.length_nil]; omega)
      rw [d1]; simp only [Option.bind_some]
      have hl2 := fmtNat_length_le (u / 10 ^ 9 / 60 % 60) 2 (by omega) (by omega)
      obtain ⟨s6, e1, e2⟩ := fmtInt_spec (u / 10 ^ 9 / 60 % 60) d2 (by
        simp only [List.length_append, List.length_cons, List.length_nil]; omega)
      rw [e1]; simp only [Option.bind_some]
      by_cases hh : u / 10 ^ 9 / 60 / 60 > 0
      · simp only [if_pos hh]
        obtain ⟨s7, f1, f2⟩ := put_holds (c! 'h') e2 (by
          simp only [List.length_append, List.length_cons, List.length_nil]; omega)
        rw [f1]; simp only [Option.bind_some]
        have hl3 := fmtNat_length_le (u / 10 ^ 9 / 60 / 60) 7 (by omega) (by omega)
        obtain ⟨s8, g1, g2⟩ := fmtInt_spec (u / 10 ^ 9 / 60 / 60) f2 (by
          simp only [List.length_append, List.length_cons, List.length_nil]; omega)
        rw [g1]; simp only [Option.bind_some]
        have ht : DurText u _ := DurText.hours u f (by omega) b4
        obtain ⟨s9, i1, i2⟩ := fin s8 _ g2 ht
        refine ⟨_, ?_, ht⟩
        rw [i1]; simp only [Option.bind_some, i2, Option.pure_def]; rfl
      · simp only [if_neg hh, Option.bind_some]
        have ht : DurText u _ := DurText.mins u f (by omega) (by omega) b4
        obtain ⟨s9, i1, i2⟩ := fin s6 _ e2 ht
        refine ⟨_, ?_, ht⟩
        rw [i1]; simp only [Option.bind_some, i2, Option.pure_def]; rfl
    · simp only [fmtMinHour, Option.bind_eq_bind, if_neg hm, Option.bind_some]
      have ht : DurText u _ := DurText.secs u f (by omega) (by omega) b4
      obtain ⟨s9, i1, i2⟩ := fin s4 _ c2 ht
      refine ⟨_, ?_, ht⟩
      rw [i1]; simp only [Option.bind_some, i2, Option.pure_def]

/-- Such a text reads back as `u`, and starts with a digit. -/
theorem durText_read {u : Nat} {t : Bytes} (h : DurText u t) (k : Nat) (hk : 3 ≤ k) :
    readComps k t = some u ∧ ∃ c cs, t = c :: cs ∧ IsDigit c := by
  have hd : ∀ n t, ∃ c cs, fmtNat n ++ t = c :: cs ∧ IsDigit c := by
    intro n t
    cases hf : fmtNat n with
    | nil => exact absurd hf (fmtNat_ne_nil n)
    | cons c cs => exact ⟨c, cs ++ t, rfl, fmtNat_digits n c (by rw [hf]; simp)⟩
  have hs : ∀ n t c cs, fmtNat n ++ t = c :: cs → IsDigit c := by
    intro n t c cs h
    obtain ⟨c', cs', h1, h2⟩ := hd n t
    rw [h] at h1
    rw [(List.cons.inj h1).1]; exact h2
  have hne : ∀ n t, ¬ fmtNat n ++ t = [] := by
    intro n t h
    exact fmtNat_ne_nil n (List.append_eq_nil_iff.1 h).1
  obtain ⟨k, rfl⟩ : ∃ j, k = j + 3 := ⟨k - 3, by omega⟩
  cases h with
  | zero =>
    refine ⟨?_, _, _, rfl, by decide⟩
    have := readComps_step (k + 2) (b! "0") [] (b! "s") [] 0 0 1000000000 (by decide) (by decide)
      (Or.inl ⟨rfl, rfl⟩) (by decide) (by decide) rfl (by decide) (by simp)
    rw [if_pos rfl] at this
    exact this
  | small _ p f unit h0 h1 h2 =>
    refine ⟨?_, hd _ _⟩
    have hunit : ∃ U, unitNs unit = some U ∧ U = 10 ^ p ∧ unit ≠ [] ∧
        ∀ c ∈ unit, unitByte c = true := by
      rcases h1 with ⟨rfl, rfl, _⟩ | ⟨rfl, rfl, _⟩ | ⟨rfl, rfl, _⟩ <;>
        exact ⟨_, rfl, rfl, by decide, by decide⟩
    obtain ⟨U, hU, hp, hu0, hub⟩ := hunit
    have h10 : 0 < 10 ^ p := Nat.pow_pos (by omega)
    have := readComps_step (k + 2) (fmtNat (u / 10 ^ p)) f unit [] p _ U (fmtNat_ne_nil _)
      (fmtNat_digits _) h2 hub hu0 hU (by rw [hp, Nat.div_self h10, Nat.mul_one]) (by simp)
    rw [List.append_nil] at this
    rw [this, if_pos rfl, fmtNat_val, hp, Nat.div_self h10, Nat.mul_one, Nat.mul_comm]
    rw [Nat.div_add_mod]
  | secs _ f h0 h1 h2 =>
    refine ⟨?_, hd _ _⟩
    have := readComps_step (k + 2) (fmtNat (u / 10 ^ 9 % 60)) f (b! "s") [] 9 _ 1000000000 (fmtNat_ne_nil _)
      (fmtNat_digits _) h2 (by decide) (by decide) rfl (by decide) (by simp)
    rw [List.append_nil] at this
    rw [this, if_pos rfl, fmtNat_val]
    congr 1; omega
  | mins _ f h0 h1 h2 =>
    refine ⟨?_, hd _ _⟩
    have := readComps_step (k + 1) (fmtNat (u / 10 ^ 9 % 60)) f (b! "s") [] 9 _ 1000000000 (fmtNat_ne_nil _)
      (fmtNat_digits _) h2 (by decide) (by decide) rfl (by decide) (by simp)
    rw [List.append_nil, if_pos rfl, fmtNat_val] at this
    have h3 := readComps_step (k + 2) (fmtNat (u / 10 ^ 9 / 60 % 60)) [] (b! "m") _ 0 0 60000000000
      (fmtNat_ne_nil _) (fmtNat_digits _) (Or.inl ⟨rfl, rfl⟩) (by decide) (by decide) rfl (by decide)
      (hs (u / 10 ^ 9 % 60) (f ++ b! "s"))
    rw [List.nil_append, if_neg (hne _ _), fmtNat_val, this] at h3
    rw [h3]
    simp only [Option.map_some]
    congr 1; omega
  | hours _ f h0 h2 =>
    refine ⟨?_, hd _ _⟩
    have := readComps_step k (fmtNat (u / 10 ^ 9 % 60)) f (b! "s") [] 9 _ 1000000000 (fmtNat_ne_nil _)
      (fmtNat_digits _) h2 (by decide) (by decide) rfl (by decide) (by simp)
    rw [List.append_nil, if_pos rfl, fmtNat_val] at this
    have h3 := readComps_step (k + 1) (fmtNat (u / 10 ^ 9 / 60 % 60)) [] (b! "m") _ 0 0 60000000000
      (fmtNat_ne_nil _) (fmtNat_digits _) (Or.inl ⟨rfl, rfl⟩) (by decide) (by decide) rfl (by decide)
      (hs (u / 10 ^ 9 % 60) (f ++ b! "s"))
    rw [List.nil_append, if_neg (hne _ _), fmtNat_val, this] at h3
    have h4 := readComps_step (k + 2) (fmtNat (u / 10 ^ 9 / 60 / 60)) [] (b! "h") _ 0 0 3600000000000
      (fmtNat_ne_nil _) (fmtNat_digits _) (Or.inl ⟨rfl, rfl⟩) (by decide) (by decide) rfl (by decide)
      (hs (u / 10 ^ 9 / 60 % 60) (b! "m" ++ (fmtNat (u / 10 ^ 9 % 60) ++ (f ++ b! "s"))))
    rw [List.nil_append, if_neg (hne _ _), fmtNat_val, h3] at h4
    rw [h4]
    simp only [Option.map_some]
    congr 1; omega


/-- Bytes that stand for themselves in a JSON string. -/
def PlainByte (c : UInt8) : Prop := 0x20 ≤ c.toNat ∧ c ≠ c! '"' ∧ c ≠ c! '\\'

instance (c : UInt8) : Decidable (PlainByte c) := inferInstanceAs (Decidable (_ ∧ _))

theorem unescape_plain (t : Bytes) (h : ∀ c ∈ t, PlainByte c) : unescape t = some t := by
  induction t with
  | nil => rfl
  | cons c cs ih =>
    obtain ⟨h1, h2, h3⟩ := h c (by simp)
    rw [unescape_raw c cs h1 h2 h3, ih (fun c hc => h c (by simp [hc]))]; rfl

theorem digit_plain {c : UInt8} (h : IsDigit c) : PlainByte c := by
  have : ∀ c : UInt8, IsDigit c → PlainByte c := by
    refine forall_byte ?_
    decide +kernel
  exact this _ h

theorem durText_plain {u : Nat} {t : Bytes} (h : DurText u t) : ∀ c ∈ t, PlainByte c := by
  have hf : ∀ {f p r}, FracText f p r → ∀ c ∈ f, PlainByte c := by
    rintro f p r (⟨rfl, _⟩ | ⟨a, d, rfl, _, h⟩) c hc
    · simp at hc
    · rcases List.mem_cons.1 hc with rfl | hc
      · decide
      · exact digit_plain (h.1 c hc)
  have hn : ∀ n, ∀ c ∈ Model.fmtNat n, PlainByte c := fun n c hc => digit_plain (fmtNat_digits n c hc)
  have app : ∀ {a b : Bytes}, (∀ c ∈ a, PlainByte c) → (∀ c ∈ b, PlainByte c) →
      ∀ c ∈ a ++ b, PlainByte c := by
    intro a b h1 h2 c hc
    rcases List.mem_append.1 hc with hc | hc
    · exact h1 c hc
    · exact h2 c hc
  cases h with
  | zero => decide
  | small _ p f unit _ h1 h2 =>
    refine app (hn _) (app (hf h2) ?_)
    rcases h1 with ⟨_, rfl, _⟩ | ⟨_, rfl, _⟩ | ⟨_, rfl, _⟩ <;> decide
  | secs _ f _ _ h2 => exact app (hn _) (app (hf h2) (by decide))
  | mins _ f _ _ h2 => exact app (hn _) (app (by decide) (app (hn _) (app (hf h2) (by decide))))
  | hours _ f _ h2 =>
    exact app (hn _) (app (by decide) (app (hn _) (app (by decide)
      (app (hn _) (app (hf h2) (by decide))))))

theorem durText_len2 {u : Nat} {t : Bytes} (h : DurText u t) : 2 ≤ t.length := by
  have hn : ∀ n, 1 ≤ (Model.fmtNat n).length := fun n => List.length_pos_iff.2 (fmtNat_ne_nil n)
  cases h with
  | zero => decide
  | small _ p f unit _ h1 _ =>
    have := hn (u / 10 ^ p)
    have : 1 ≤ unit.length := by
      rcases h1 with ⟨_, rfl, _⟩ | ⟨_, rfl, _⟩ | ⟨_, rfl, _⟩ <;> decide
    simp only [List.length_append]; omega
  | secs _ f =>
    have := hn (u / 10 ^ 9 % 60)
    simp only [List.length_append, List.length_cons]; omega
  | mins _ f =>
    have := hn (u / 10 ^ 9 % 60)
    simp only [List.length_append, List.length_cons]; omega
  | hours _ f =>
    have := hn (u / 10 ^ 9 % 60)
    simp only [List.length_append, List.length_cons]; omega

end Jettison.Proofs

