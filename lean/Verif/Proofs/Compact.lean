import Verif.Model.Compact
import Verif.Proofs.Body
import Verif.Proofs.Number

/-! # `appendCompactJSON`: from the index loop to a list recursion, then to the grammar -/

namespace Jettison.Proofs
open Jettison.Spec Jettison.Model

/-- Whitespace as tested by the code. -/
def isSp (c : UInt8) : Bool := c = c! ' ' || c = c! '\n' || c = c! '\r' || c = c! '\t'

/-- `(c)` is the last byte of U+2028 or U+2029. -/
def sepLast (c : UInt8) : Bool := (c &&& ~~~1) = 0xA8

/-- The HTML escape of a byte. -/
def uEsc (c : UInt8) : Bytes := b! "\\u00" ++ [hexDigit (c >>> 4), hexDigit (c &&& 0xF)]

/-- The escape for a separator. -/
def sepEsc (c : UInt8) : Bytes := b! "\\u202" ++ [hexDigit (c &&& 0xF)]

/-- The separator at the front of a list, if any: last byte and rest. -/
def sepFront : Bytes → Option (UInt8 × Bytes)
  | a :: b :: c :: t => if a = 0xE2 ∧ b = 0x80 ∧ sepLast c then some (c, t) else none
  | _ => none

/-- List form of the compaction loop. -/
def compactL (esc : Bool) : Nat → Bool → Bool → Bytes → Bytes
  | 0, _, _, _ => []
  | _ + 1, _, _, [] => []
  | n + 1, inStr, skip, c :: t =>
    if esc && htmlChar c then uEsc c ++ compactL esc n inStr skip t
    else match sepFront (c :: t) with
    | some (x, t') => sepEsc x ++ compactL esc n inStr (if inStr then false else skip) t'
    | none =>
      if !inStr then
        if c = c! '"' then c :: compactL esc n true skip t
        else if isSp c then compactL esc n inStr skip t
        else c :: compactL esc n inStr skip t
      else if skip then c :: compactL esc n inStr false t
      else if c = c! '\\' then c :: compactL esc n inStr true t
      else if c = c! '"' then c :: compactL esc n false skip t
      else c :: compactL esc n inStr skip t

theorem sepFront_length {s x t} (h : sepFront s = some (x, t)) : s.length = t.length + 3 := by
  unfold sepFront at h
  split at h
  · split at h
    · simp at h; obtain ⟨-, rfl⟩ := h; simp
    · simp at h
  · simp at h

theorem compactL_fuel (esc : Bool) : ∀ (n m : Nat) (i k : Bool) (s : Bytes), s.length ≤ n → s.length ≤ m →
    compactL esc n i k s = compactL esc m i k s := by
  intro n
  induction n with
  | zero =>
    intro m i k s h1 h2
    cases s with
    | nil => cases m <;> rfl
    | cons => simp at h1
  | succ n ih =>
    intro m i k s h1 h2
    cases s with
    | nil => cases m <;> rfl
    | cons c t =>
      cases m with
      | zero => simp at h2
      | succ m =>
        simp only [List.length_cons] at h1 h2
        have ih' : ∀ i k, compactL esc n i k t = compactL esc m i k t := fun i k => ih m i k t (by omega) (by omega)
        simp only [compactL, ih']
        cases hs : sepFront (c :: t) with
        | none => rfl
        | some p =>
          obtain ⟨x, t'⟩ := p
          have := sepFront_length hs
          simp only [List.length_cons] at this
          simp only [ih m _ _ t' (by omega) (by omega)]

theorem getD_drop (src : Bytes) (i k : Nat) : (src.drop i).getD k 0 = src.getD (i + k) 0 := by
  simp [List.getD_eq_getElem?_getD, List.getElem?_drop]

theorem sepAt_drop (src : Bytes) (i : Nat) (c : UInt8) (t : Bytes) (h : src.drop i = c :: t) :
    (sepAt src i = true ∧ ∃ x t', sepFront (c :: t) = some (x, t') ∧ x = src.getD (i + 2) 0 ∧
      src.drop (i + 3) = t' ∧ c = 0xE2 ∧ ∃ y, t = 0x80 :: y :: t' ∧ y = x ∧ sepLast x = true) ∨
    (sepAt src i = false ∧ sepFront (c :: t) = none) := by
  have e0 : src.getD i 0 = c := by
    have := getD_drop src i 0; rw [h] at this; simpa using this.symm
  have e1 : src.getD (i + 1) 0 = (c :: t).getD 1 0 := by rw [← h, getD_drop]
  have e2 : src.getD (i + 2) 0 = (c :: t).getD 2 0 := by rw [← h, getD_drop]
  have hl : src.length = i + (t.length + 1) := by
    have := congrArg List.length h
    simp at this
    have hi : i ≤ src.length := by
      apply Nat.le_of_not_lt; intro hh
      rw [List.drop_eq_nil_of_le (by omega)] at h; cases h
    omega
  unfold sepAt
  rw [e0, e1, e2]
  match t, hl, h with
  | [], hl, h => right; simp [hl, sepFront]
  | [a], hl, h => right; simp [hl, sepFront]; 
  | a :: b :: t', hl, h =>
    by_cases hc : c = 0xE2 ∧ a = 0x80 ∧ sepLast b = true
    · left
      obtain ⟨rfl, rfl, hb⟩ := hc
      refine ⟨?_, b, t', ?_, by simp, ?_, rfl, b, rfl, rfl, hb⟩
      · simp [hl]; simpa [sepLast] using hb
      · simp [sepFront, hb]
      · rw [show i + 3 = i + 3 from rfl, ← List.drop_drop, h]; rfl
    · right
      refine ⟨?_, ?_⟩
      · rw [Bool.eq_false_iff]
        intro hh
        apply hc
        simp only [Bool.and_eq_true, decide_eq_true_eq] at hh
        refine ⟨hh.1.1.1, by simpa using hh.1.2, by simpa [sepLast] using hh.2⟩
      · show (if _ then _ else _) = _; rw [if_neg hc]

theorem cflush_eq (dst src : Bytes) (at_ i : Nat) (h : at_ ≤ i) :
    flush dst src at_ i = dst ++ slice src at_ i := by
  unfold flush
  split
  · rfl
  · have : at_ = i := by omega
    subst this
    simp [slice]

theorem cslice_succ (src : Bytes) (at_ i : Nat) (c : UInt8) (t : Bytes) (h : at_ ≤ i)
    (hd : src.drop i = c :: t) : slice src at_ (i + 1) = slice src at_ i ++ [c] := by
  have hi : i < src.length := by
    apply Nat.lt_of_not_le; intro hh
    rw [List.drop_eq_nil_of_le hh] at hd; cases hd
  unfold slice
  have e : src.take (i + 1) = src.take i ++ [c] := by
    rw [List.take_succ_eq_append_getElem hi]
    congr 2
    have := List.drop_eq_getElem_cons hi
    rw [hd] at this
    exact (List.cons.inj this).1.symm
  rw [e, List.drop_append_of_le_length (by simp; omega)]

theorem cslice_self (src : Bytes) (i : Nat) : slice src i i = [] := by
  simp [slice]

theorem byte_ne_sep : ∀ c : UInt8, sepLast c = true →
    htmlChar c = false ∧ c ≠ 0xE2 ∧ c ≠ c! '"' ∧ isSp c = false ∧ c ≠ c! '\\' := by
  refine forall_byte ?_
  decide +kernel

/-- One silent iteration over a byte that lies inside a converted separator. -/
theorem loop_silent (esc : Bool) (src : Bytes) (n i at_ : Nat) (inStr skip : Bool) (dst : Bytes)
    (c : UInt8) (hc : src.getD i 0 = c) (h : htmlChar c = false ∧ c ≠ 0xE2 ∧ c ≠ c! '"' ∧ isSp c = false ∧ c ≠ c! '\\') :
    compactLoop esc src (n + 1) i at_ inStr skip dst =
      compactLoop esc src n (i + 1) at_ inStr (if inStr then false else skip) dst := by
  obtain ⟨h1, h2, h3, h4, h5⟩ := h
  have hs : sepAt src i = false := by
    unfold sepAt; rw [hc]; simp [h2]
  have h4' : (c = c! ' ' || c = c! '\n' || c = c! '\r' || c = c! '\t') = false := h4
  rw [compactLoop]
  simp only [hc, h1, hs, Bool.and_false, Bool.false_eq_true, if_false, h3, h4', h5]
  cases inStr <;> cases skip <;> simp

/-- The loop from position `i` with pending bytes `src[at:i]`. -/
theorem loop_eq (esc : Bool) (src : Bytes) : ∀ (n i at_ : Nat) (inStr skip : Bool) (dst : Bytes),
    at_ ≤ i → i + n = src.length →
    compactLoop esc src n i at_ inStr skip dst =
      dst ++ slice src at_ i ++ compactL esc n inStr skip (src.drop i) := by
  intro n
  induction n using Nat.strongRecOn with
  | _ n ih =>
    intro i at_ inStr skip dst hat hn
    cases n with
    | zero =>
      have hi : i = src.length := by omega
      subst hi
      rw [compactLoop, compactL]
      unfold slice
      rw [List.take_length, List.append_nil]
      split
      · rfl
      · rw [List.drop_eq_nil_of_le (by omega), List.append_nil]
    | succ n =>
      have hi : i < src.length := by omega
      obtain ⟨c, t, hd⟩ : ∃ c t, src.drop i = c :: t := by
        rw [List.drop_eq_getElem_cons hi]; exact ⟨_, _, rfl⟩
      have hc : src.getD i 0 = c := by
        have := getD_drop src i 0; rw [hd] at this; simpa using this.symm
      have ht : src.drop (i + 1) = t := by
        rw [← List.drop_drop, hd]; rfl
      have ihn := ih n (by omega)
      rw [hd, compactLoop, compactL]
      simp only [hc]
      by_cases hh : (esc && htmlChar c) = true
      · rw [if_pos hh, if_pos hh, ihn _ _ _ _ _ (Nat.le_refl _) (by omega), ht, cslice_self,
          cflush_eq _ _ _ _ hat]
        simp [uEsc]
      · rw [if_neg hh, if_neg hh]
        rcases sepAt_drop src i c t hd with ⟨hs, x, t', hsf, hx, hd3, rfl, y, rfl, rfl, hlast⟩ | ⟨hs, hsf⟩
        · rw [if_pos hs, hsf]
          simp only
          match n, hn, ih with
          | 0, hn, _ =>
            have := congrArg List.length hd; simp at this; omega
          | 1, hn, _ =>
            have := congrArg List.length hd; simp at this; omega
          | m + 2, hn, ih =>
            have g1 : src.getD (i + 1) 0 = 0x80 := by
              have := getD_drop src i 1; rw [hd] at this; simpa using this.symm
            have g2 : src.getD (i + 1 + 1) 0 = y := by
              have := getD_drop src i 2; rw [hd] at this; simpa using this.symm
            rw [loop_silent esc src (m + 1) (i + 1) _ inStr skip _ 0x80 g1 (by decide),
              loop_silent esc src m (i + 1 + 1) _ inStr _ _ y g2 (byte_ne_sep y hlast),
              ih m (by omega) _ _ _ _ _ (by omega) (by omega), cflush_eq _ _ _ _ hat,
              show i + 1 + 1 + 1 = i + 3 by omega, cslice_self, hd3, ← hx]
            have hlen := congrArg List.length hd3
            simp at hlen
            rw [compactL_fuel esc (m + 2) m _ _ t' (by omega) (by omega)]
            cases inStr <;> simp [sepEsc]
        · simp only [hs, hsf, Bool.false_eq_true, if_false]
          have keep : ∀ a b, compactLoop esc src n (i + 1) at_ a b dst =
              dst ++ slice src at_ i ++ c :: compactL esc n a b t := by
            intro a b
            rw [ihn _ _ _ _ _ (by omega) (by omega), ht, cslice_succ src at_ i c t hat hd]
            simp
          have drop : ∀ a b, compactLoop esc src n (i + 1) (i + 1) a b (flush dst src at_ i) =
              dst ++ slice src at_ i ++ compactL esc n a b t := by
            intro a b
            rw [ihn _ _ _ _ _ (Nat.le_refl _) (by omega), ht, cslice_self, cflush_eq _ _ _ _ hat]
            simp
          simp only [keep, drop]
          repeat' split
          all_goals first | rfl | simp_all [isSp]

/-- Compaction as a list function, with enough fuel. -/
def cmp (esc inStr skip : Bool) (s : Bytes) : Bytes := compactL esc s.length inStr skip s

theorem appendCompactJSON_eq (dst src : Bytes) (esc : Bool) :
    appendCompactJSON dst src esc = dst ++ cmp esc false false src := by
  unfold appendCompactJSON cmp
  rw [loop_eq esc src _ _ _ _ _ _ (Nat.le_refl _) (by omega), cslice_self]
  simp

theorem cmp_nil (esc i k : Bool) : cmp esc i k [] = [] := rfl

theorem cmp_html {esc : Bool} (i k : Bool) {c : UInt8} (t : Bytes) (h : (esc && htmlChar c) = true) :
    cmp esc i k (c :: t) = uEsc c ++ cmp esc i k t := by
  unfold cmp
  rw [List.length_cons, compactL, if_pos h]

theorem cmp_sep (esc i k : Bool) {x : UInt8} (t : Bytes) (h : sepLast x = true) :
    cmp esc i k (0xE2 :: 0x80 :: x :: t) = sepEsc x ++ cmp esc i (if i then false else k) t := by
  unfold cmp
  have hs : sepFront (0xE2 :: 0x80 :: x :: t) = some (x, t) := by simp [sepFront, h]
  rw [List.length_cons, compactL, if_neg (by decide +revert), hs]
  simp only
  rw [compactL_fuel esc _ t.length _ _ t (by simp; omega) (Nat.le_refl _)]

/-- A byte that needs no conversion. -/
def Plain (esc : Bool) (s : Bytes) : Prop :=
  ∀ c t, s = c :: t → (esc && htmlChar c) = false ∧ sepFront s = none

theorem cmp_out {esc : Bool} (k : Bool) {c : UInt8} (t : Bytes) (h1 : (esc && htmlChar c) = false)
    (h2 : sepFront (c :: t) = none) :
    cmp esc false k (c :: t) = if c = c! '"' then c :: cmp esc true k t
      else if isSp c then cmp esc false k t else c :: cmp esc false k t := by
  unfold cmp
  rw [List.length_cons, compactL, if_neg (by simp [h1]), h2]
  rfl

theorem cmp_in {esc : Bool} (k : Bool) {c : UInt8} (t : Bytes) (h1 : (esc && htmlChar c) = false)
    (h2 : sepFront (c :: t) = none) :
    cmp esc true k (c :: t) = if k then c :: cmp esc true false t
      else if c = c! '\\' then c :: cmp esc true true t
      else if c = c! '"' then c :: cmp esc false k t else c :: cmp esc true k t := by
  unfold cmp
  rw [List.length_cons, compactL, if_neg (by simp [h1]), h2]
  rfl

end Jettison.Proofs
