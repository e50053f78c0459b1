import Verif.Proofs.Utf8
import Verif.Model.Escape
import Verif.Spec.JsonString

/-! Helper lemmas: the escaping loop as a rewriting of the input. -/

namespace Jettison.Proofs
open Jettison.Spec Jettison.Model

/-- What the loop does to its input, unit by unit. -/
inductive Esc (o : EscOpts) : Bytes → Bytes → Prop
  | nil : Esc o [] []
  | plain (c : UInt8) (t out : Bytes) (h1 : c.toNat < 0x80) (h2 : plainAscii o c = true)
      (h : Esc o t out) : Esc o (c :: t) ([c] ++ out)
  | ascii (c : UInt8) (t out : Bytes) (h1 : c.toNat < 0x80) (h2 : plainAscii o c = false)
      (h : Esc o t out) : Esc o (c :: t) (escapeAscii c ++ out)
  | good (cp : Nat) (t out : Bytes) (h1 : IsScalar cp) (h2 : 0x80 ≤ cp)
      (h3 : o.noUTF8Coercion = true ∨ (cp ≠ 0x2028 ∧ cp ≠ 0x2029))
      (h : Esc o t out) : Esc o (utf8Encode cp ++ t) (utf8Encode cp ++ out)
  | sep (cp : Nat) (t out : Bytes) (h1 : o.noUTF8Coercion = false)
      (h2 : cp = 0x2028 ∨ cp = 0x2029) (h : Esc o t out) :
      Esc o (utf8Encode cp ++ t)
        (b! "\\u202" ++ [hexDigit (UInt8.ofNat (cp &&& 0xF))] ++ out)
  | bad (b : UInt8) (t out : Bytes) (h1 : o.noUTF8Coercion = false) (h2 : 0x80 ≤ b.toNat)
      (h3 : BadStart (b :: t)) (h : Esc o t out) : Esc o (b :: t) (b! "\\ufffd" ++ out)
  | raw (b : UInt8) (t out : Bytes) (h1 : o.noUTF8Coercion = true) (h2 : 0x80 ≤ b.toNat)
      (h3 : BadStart (b :: t)) (h : Esc o t out) : Esc o (b :: t) ([b] ++ out)

theorem slice_append (b : Bytes) (lo i n : Nat) (h1 : lo ≤ i) (h2 : i ≤ b.length) :
    slice b lo i ++ (b.drop i).take n = slice b lo (i + n) := by
  unfold slice
  rw [List.take_add, List.drop_append_of_le_length]
  simp; omega

theorem slice_self (b : Bytes) (i : Nat) : slice b i i = [] := by
  simp [slice]

theorem slice_full (b : Bytes) (lo hi : Nat) (h : b.length ≤ hi) : slice b lo hi = b.drop lo := by
  unfold slice; rw [List.take_of_length_le h]

theorem flush_eq (dst b : Bytes) (a i : Nat) (h : a ≤ i) : flush dst b a i = dst ++ slice b a i := by
  unfold flush
  split
  · rfl
  · have : a = i := by omega
    subst this; simp [slice_self]

theorem tail_eq (dst b : Bytes) (a i : Nat) (h : b.length ≤ i) :
    (if a < b.length then dst ++ b.drop a else dst) = dst ++ slice b a i := by
  rw [slice_full b a i h]
  split
  · rfl
  · rw [List.drop_eq_nil_of_le (by omega)]; simp

theorem escLoop_spec (o : EscOpts) (b : Bytes) : ∀ (fuel i a : Nat) (dst : Bytes),
    a ≤ i → i ≤ b.length → b.length - i ≤ fuel →
    ∃ out, Esc o (b.drop i) out ∧ escLoop o b fuel i a dst = dst ++ slice b a i ++ out := by
  intro fuel
  induction fuel with
  | zero =>
    intro i a dst h1 h2 h3
    refine ⟨[], ?_, ?_⟩
    · rw [List.drop_eq_nil_of_le (by omega)]; exact Esc.nil
    · simp only [escLoop, List.append_nil]; exact tail_eq _ _ _ _ (by omega)
  | succ fuel ih =>
    intro i a dst h1 h2 h3
    rw [escLoop]
    by_cases hi : i < b.length
    rotate_left
    · refine ⟨[], ?_, ?_⟩
      · rw [List.drop_eq_nil_of_le (by omega)]; exact Esc.nil
      · rw [if_neg hi, List.append_nil]; exact tail_eq _ _ _ _ (by omega)
    rw [if_pos hi]
    have hd : b.drop i = b.getD i 0 :: b.drop (i + 1) := by
      rw [List.drop_eq_getElem_cons hi]
      simp [List.getD, List.getElem?_eq_getElem hi]
    simp only
    generalize hc : b.getD i 0 = c at hd ⊢
    have h1c : slice b a i ++ [c] = slice b a (i + 1) := by
      have := slice_append b a i 1 h1 h2
      rw [hd] at this; simpa using this
    by_cases hlt : c < 0x80
    · rw [if_pos hlt]
      have hlt' : c.toNat < 0x80 := by simpa [UInt8.lt_iff_toNat_lt] using hlt
      by_cases hp : plainAscii o c = true
      · rw [if_pos hp]
        obtain ⟨out, he, hl⟩ := ih (i + 1) a dst (by omega) (by omega) (by omega)
        refine ⟨[c] ++ out, ?_, ?_⟩
        · rw [hd]; exact Esc.plain c _ out hlt' hp he
        · rw [hl, ← h1c]; simp
      · rw [if_neg hp]
        obtain ⟨out, he, hl⟩ := ih (i + 1) (i + 1) (flush dst b a i ++ escapeAscii c)
          (by omega) (by omega) (by omega)
        refine ⟨escapeAscii c ++ out, ?_, ?_⟩
        · rw [hd]; exact Esc.ascii c _ out hlt' (by simpa using hp) he
        · rw [hl, flush_eq _ _ _ _ h1, slice_self]; simp
    · rw [if_neg hlt]
      have hge : 0x80 ≤ c.toNat := by simpa [UInt8.lt_iff_toNat_lt] using hlt
      rw [hd]
      rcases decodeRune_sound c (b.drop (i + 1)) hge with ⟨hr, hb⟩ | ⟨cp, rest, hs, h80, he, hr⟩
      · simp only [hr]
        by_cases hn : o.noUTF8Coercion = true
        · rw [if_neg (by simp [hn])]
          obtain ⟨out, he, hl⟩ := ih (i + 1) a dst (by omega) (by omega) (by omega)
          refine ⟨[c] ++ out, Esc.raw c _ out hn hge hb he, ?_⟩
          rw [hl, ← h1c]; simp
        · rw [if_pos (by simp [hn]), if_pos (by simp)]
          obtain ⟨out, he, hl⟩ := ih (i + 1) (i + 1) (flush dst b a i ++ b! "\\ufffd")
            (by omega) (by omega) (by omega)
          refine ⟨b! "\\ufffd" ++ out, Esc.bad c _ out (by simpa using hn) hge hb he, ?_⟩
          rw [hl, flush_eq _ _ _ _ h1, slice_self]; simp
      · simp only [hr]
        have hlen : (b.drop i).length = b.length - i := List.length_drop
        rw [hd, he] at hlen
        have hpos := utf8Encode_length_pos cp
        have h2l := utf8Encode_len h80
        have hbound : i + (utf8Encode cp).length ≤ b.length := by
          simp only [List.length_append] at hlen; omega
        have hdrop : b.drop (i + (utf8Encode cp).length) = rest := by
          rw [← List.drop_drop, hd, he, List.drop_left]
        have htake : slice b a i ++ utf8Encode cp = slice b a (i + (utf8Encode cp).length) := by
          have := slice_append b a i (utf8Encode cp).length h1 h2
          rw [hd, he, List.take_left] at this
          exact this
        by_cases hn : o.noUTF8Coercion = true
        · rw [if_neg (by simp [hn])]
          obtain ⟨out, hE, hl⟩ := ih (i + (utf8Encode cp).length) a dst (by omega) hbound (by omega)
          refine ⟨utf8Encode cp ++ out, ?_, ?_⟩
          · rw [he]; exact Esc.good cp rest out hs h80 (Or.inl hn) (hdrop ▸ hE)
          · rw [hl, ← htake]; simp
        · rw [if_pos (by simp [hn]), if_neg (by omega)]
          by_cases hsep : cp = 0x2028 ∨ cp = 0x2029
          · rw [if_pos hsep]
            obtain ⟨out, hE, hl⟩ := ih (i + (utf8Encode cp).length) (i + (utf8Encode cp).length)
              (flush dst b a i ++ b! "\\u202" ++ [hexDigit (UInt8.ofNat (cp &&& 0xF))])
              (by omega) hbound (by omega)
            refine ⟨b! "\\u202" ++ [hexDigit (UInt8.ofNat (cp &&& 0xF))] ++ out, ?_, ?_⟩
            · rw [he]; exact Esc.sep cp rest out (by simpa using hn) hsep (hdrop ▸ hE)
            · rw [hl, flush_eq _ _ _ _ h1, slice_self]; simp
          · rw [if_neg hsep]
            obtain ⟨out, hE, hl⟩ := ih (i + (utf8Encode cp).length) a dst (by omega) hbound
              (by omega)
            refine ⟨utf8Encode cp ++ out, ?_, ?_⟩
            · rw [he]; exact Esc.good cp rest out hs h80 (Or.inr (by omega)) (hdrop ▸ hE)
            · rw [hl, ← htake]; simp

/-- The escaping function appends a rewriting of its input to `dst`. -/
theorem appendEscapedBytes_spec (dst b : Bytes) (o : EscOpts) (h : o.noStringEscaping = false) :
    ∃ out, Esc o b out ∧ appendEscapedBytes dst b o = dst ++ out := by
  obtain ⟨out, he, hl⟩ := escLoop_spec o b b.length 0 0 dst (by omega) (by omega) (by omega)
  refine ⟨out, by simpa using he, ?_⟩
  unfold appendEscapedBytes
  rw [if_neg (by simp [h]), hl, slice_self]; simp

/-- The rewriting does not depend on the destination. -/
theorem appendEscapedBytes_append (dst b : Bytes) (o : EscOpts) :
    appendEscapedBytes dst b o = dst ++ appendEscapedBytes [] b o := by
  by_cases h : o.noStringEscaping = true
  · simp [appendEscapedBytes, h]
  · have key : ∀ fuel i a (dst : Bytes), a ≤ i → escLoop o b fuel i a dst = dst ++ escLoop o b fuel i a [] := by
      intro fuel
      induction fuel with
      | zero => intro i a dst _; simp only [escLoop]; split <;> simp
      | succ fuel ih =>
        intro i a dst hai
        simp only [escLoop, flush_eq _ _ _ _ hai]
        generalize decodeRune (List.drop i b) = rs
        obtain ⟨r, size⟩ := rs
        simp only
        split
        · split
          · split
            · exact ih _ _ _ (by omega)
            · rw [ih _ _ (dst ++ _ ++ _) (Nat.le_refl _), ih _ _ ([] ++ _ ++ _) (Nat.le_refl _)]; simp
          · split
            · split
              · rw [ih _ _ (dst ++ _ ++ _) (Nat.le_refl _), ih _ _ ([] ++ _ ++ _) (Nat.le_refl _)]; simp
              · split
                · rw [ih _ _ (dst ++ _ ++ _ ++ _) (Nat.le_refl _), ih _ _ ([] ++ _ ++ _ ++ _) (Nat.le_refl _)]; simp
                · exact ih _ _ _ (by omega)
            · exact ih _ _ _ (by omega)
        · split <;> simp
    simp only [appendEscapedBytes, if_neg h]
    exact key _ _ _ _ (by omega)

end Jettison.Proofs
