import Verif.Spec.Tags
import Verif.Model.Tags
import Verif.Proofs.Body
import Verif.Proofs.Utf8
import Verif.Proofs.CompactGr

/-! # Tags and keys -/

namespace Jettison.Proofs
open Jettison.Spec Jettison.Model

theorem indexComma_none : ∀ {s : Bytes}, indexComma s = none → c! ',' ∉ s
  | [], _ => by simp
  | c :: t, h => by
    unfold indexComma at h
    split at h
    · cases h
    · rename_i hc
      rw [Option.map_eq_none_iff] at h
      simp only [List.mem_cons, not_or]
      exact ⟨fun e => hc e.symm, indexComma_none h⟩

theorem indexComma_some : ∀ {s : Bytes} {m : Nat}, indexComma s = some m →
    c! ',' ∉ s.take m ∧ s = s.take m ++ c! ',' :: s.drop (m + 1) ∧ m < s.length
  | [], _, h => by cases h
  | c :: t, m, h => by
    unfold indexComma at h
    split at h
    · rename_i hc
      cases h
      subst hc
      simp
    · rename_i hc
      obtain ⟨k, hk, rfl⟩ := Option.map_eq_some_iff.1 h
      obtain ⟨h1, h2, h3⟩ := indexComma_some hk
      refine ⟨?_, ?_, ?_⟩
      · simp only [List.take_succ_cons, List.mem_cons, not_or]
        exact ⟨fun e => hc e.symm, h1⟩
      · simp only [List.take_succ_cons, List.cons_append, List.drop_succ_cons]
        rw [← h2]
      · simp only [List.length_cons]; omega

theorem splitComma_spec : ∀ (fuel : Nat) (s : Bytes), s.length ≤ fuel →
    (∀ o ∈ splitComma fuel s, c! ',' ∉ o) ∧ splitComma fuel s ≠ [] ∧ joinComma (splitComma fuel s) = s
  | 0, s, h => by
    have : s = [] := List.length_eq_zero_iff.1 (by omega)
    subst this
    simp [splitComma, joinComma]
  | fuel + 1, s, h => by
    unfold splitComma
    split
    · rename_i hn
      have := indexComma_none hn
      simp [joinComma, this]
    · rename_i m hm
      obtain ⟨h1, h2, h3⟩ := indexComma_some hm
      obtain ⟨i1, i2, i3⟩ := splitComma_spec fuel (s.drop (m + 1)) (by simp only [List.length_drop]; omega)
      refine ⟨?_, by simp, ?_⟩
      · intro o ho
        rcases List.mem_cons.1 ho with rfl | ho
        · exact h1
        · exact i1 o ho
      · cases hs : splitComma fuel (s.drop (m + 1)) with
        | nil => exact absurd hs i2
        | cons x t =>
          rw [hs] at i3
          rw [joinComma, i3]
          exact h2.symm

theorem parseTag_reading (tag : Bytes) : TagReading tag (parseTag tag).1 (parseTag tag).2 := by
  unfold parseTag
  split
  · rename_i m hm
    obtain ⟨h1, h2, h3⟩ := indexComma_some hm
    obtain ⟨i1, i2, i3⟩ := splitComma_spec tag.length (tag.drop (m + 1)) (by simp only [List.length_drop]; omega)
    exact ⟨h1, i1, Or.inr ⟨i2, by simp only; rw [i3]; exact h2⟩⟩
  · rename_i hn
    exact ⟨indexComma_none hn, by simp, Or.inl ⟨rfl, rfl⟩⟩

/-- Cutting at the first comma is unique. -/
theorem cut_unique : ∀ {a a' b b' : Bytes}, c! ',' ∉ a → c! ',' ∉ a' → a ++ c! ',' :: b = a' ++ c! ',' :: b' →
    a = a' ∧ b = b'
  | [], [], b, b', _, _, h => by simpa using h
  | x :: a, [], b, b', h1, _, h => by
    simp only [List.cons_append, List.nil_append, List.cons.injEq] at h
    exact absurd (by rw [h.1]; simp) h1
  | [], x :: a, b, b', _, h2, h => by
    simp only [List.cons_append, List.nil_append, List.cons.injEq] at h
    exact absurd (by rw [← h.1]; simp) h2
  | x :: a, y :: a', b, b', h1, h2, h => by
    simp only [List.cons_append, List.cons.injEq] at h
    obtain ⟨r1, r2⟩ := cut_unique (fun m => h1 (List.mem_cons_of_mem _ m)) (fun m => h2 (List.mem_cons_of_mem _ m)) h.2
    exact ⟨by rw [h.1, r1], r2⟩

theorem join_unique : ∀ {l l' : List Bytes}, (∀ o ∈ l, c! ',' ∉ o) → (∀ o ∈ l', c! ',' ∉ o) → l ≠ [] → l' ≠ [] →
    joinComma l = joinComma l' → l = l'
  | [x], [y], _, _, _, _, h => by simpa [joinComma] using h
  | [x], y :: z :: t, h1, h2, _, _, h => by
    simp only [joinComma] at h
    exact absurd (by rw [h]; simp) (h1 x (by simp))
  | y :: z :: t, [x], h1, h2, _, _, h => by
    simp only [joinComma] at h
    exact absurd (by rw [← h]; simp) (h2 x (by simp))
  | x :: y :: t, x' :: y' :: t', h1, h2, _, _, h => by
    simp only [joinComma] at h
    obtain ⟨e1, e2⟩ := cut_unique (h1 x (by simp)) (h2 x' (by simp)) h
    rw [e1, join_unique (fun o ho => h1 o (List.mem_cons_of_mem _ ho)) (fun o ho => h2 o (List.mem_cons_of_mem _ ho))
      (by simp) (by simp) e2]
  | [], _, _, _, h, _, _ => absurd rfl h
  | _ :: _, [], _, _, _, h, _ => absurd rfl h

theorem tagReading_unique {tag n n' : Bytes} {o o' : List Bytes} (h : TagReading tag n o) (h' : TagReading tag n' o') :
    n = n' ∧ o = o' := by
  obtain ⟨a1, a2, a3⟩ := h
  obtain ⟨b1, b2, b3⟩ := h'
  rcases a3 with ⟨rfl, rfl⟩ | ⟨ho, rfl⟩
  · rcases b3 with ⟨rfl, rfl⟩ | ⟨ho', rfl⟩
    · exact ⟨rfl, rfl⟩
    · exact absurd (by simp) a1
  · rcases b3 with ⟨rfl, rfl⟩ | ⟨ho', e⟩
    · exact absurd (by simp) b1
    · obtain ⟨e1, e2⟩ := cut_unique a1 b1 e
      exact ⟨e1, join_unique a2 b2 ho ho' e2⟩

theorem tagContains_iff (opts : List Bytes) (name : Bytes) : tagContains opts name = true ↔ name ∈ opts := by
  induction opts with
  | nil => simp [tagContains]
  | cons o t ih =>
    unfold tagContains
    split
    · rename_i h; simp [h]
    · rename_i h
      rw [ih, List.mem_cons]
      exact ⟨Or.inr, fun h' => h'.resolve_left (fun e => h e.symm)⟩

theorem validRune_iff (U : UnicodeTab) (c : Nat) : validRune U c = true ↔ TagChar U.isLetter U.isDigit c := by
  unfold validRune TagChar validChars
  rw [Bool.or_eq_true, Bool.or_eq_true, List.contains_iff_mem, or_assoc]

theorem decodeRune_ascii (c : UInt8) (t : Bytes) (h : c.toNat < 0x80) : decodeRune (c :: t) = (c.toNat, 1) := by
  unfold decodeRune
  simp only
  rw [if_pos (by rw [UInt8.lt_iff_toNat_lt]; exact h)]

theorem tag_not_repl {U : UnicodeTab} (hU : TablesOk U.isLetter U.isDigit) : ¬ TagChar U.isLetter U.isDigit 0xFFFD := by
  unfold TagChar
  rw [hU.repl.1, hU.repl.2]
  simp only [Bool.false_eq_true, or_false]
  decide

theorem validLoop_iff {U : UnicodeTab} (hU : TablesOk U.isLetter U.isDigit) : ∀ (fuel : Nat) (s : Bytes), s.length ≤ fuel →
    (validLoop U fuel s = true ↔
      ∃ cps : List Nat, (∀ c ∈ cps, IsScalar c ∧ TagChar U.isLetter U.isDigit c) ∧ s = cps.flatMap utf8Encode)
  | fuel, [], _ => by
    have : validLoop U fuel [] = true := by cases fuel <;> rfl
    simp only [this, true_iff]
    exact ⟨[], by simp, rfl⟩
  | 0, _ :: _, h => by simp at h
  | fuel + 1, c :: t, h => by
    have key : ∀ (r n : Nat), decodeRune (c :: t) = (r, n) → 1 ≤ n → IsScalar r →
        ((c :: t) = utf8Encode r ++ (c :: t).drop n) →
        (validLoop U (fuel + 1) (c :: t) = true ↔
          ∃ cps : List Nat, (∀ c ∈ cps, IsScalar c ∧ TagChar U.isLetter U.isDigit c) ∧ c :: t = cps.flatMap utf8Encode) := by
      intro r n hd hn hs he
      have ih := validLoop_iff hU fuel ((c :: t).drop n) (by simp only [List.length_drop, List.length_cons] at h ⊢; omega)
      rw [validLoop]
      simp only [hd]
      by_cases hv : validRune U r = true
      · rw [if_pos hv, ih]
        constructor
        · rintro ⟨cps, h1, h2⟩
          refine ⟨r :: cps, ?_, ?_⟩
          · intro x hx
            rcases List.mem_cons.1 hx with rfl | hx
            · exact ⟨hs, (validRune_iff U _).1 hv⟩
            · exact h1 x hx
          · rw [List.flatMap_cons, ← h2]; exact he
        · rintro ⟨cps, h1, h2⟩
          cases cps with
          | nil => cases h2
          | cons x cps =>
            rw [List.flatMap_cons] at h2
            rw [h2] at he
            obtain ⟨e1, e2⟩ := utf8Encode_inj (h1 x (by simp)).1 hs he
            refine ⟨cps, fun y hy => h1 y (List.mem_cons_of_mem _ hy), ?_⟩
            rw [h2]
            exact e2.symm
      · rw [if_neg hv]
        simp only [Bool.false_eq_true, false_iff]
        rintro ⟨cps, h1, h2⟩
        cases cps with
        | nil => cases h2
        | cons x cps =>
          rw [List.flatMap_cons] at h2
          rw [h2] at he
          obtain ⟨e1, -⟩ := utf8Encode_inj (h1 x (by simp)).1 hs he
          exact hv ((validRune_iff U r).2 (e1 ▸ (h1 x (by simp)).2))
    by_cases hc : c.toNat < 0x80
    · exact key _ _ (decodeRune_ascii c t hc) (by decide) (Or.inl (by omega)) (by rw [utf8Encode_ascii hc]; simp)
    · rcases decodeRune_sound c t (by omega) with ⟨h1, h2⟩ | ⟨cp, rest, h1, h2, h3, h4⟩
      · have hv : validRune U runeError = false := by
          rw [Bool.eq_false_iff]
          intro hv
          exact tag_not_repl hU ((validRune_iff U _).1 hv)
        rw [validLoop]
        simp only [h1]
        rw [if_neg (by simp [hv])]
        simp only [Bool.false_eq_true, false_iff]
        rintro ⟨cps, h5, h6⟩
        cases cps with
        | nil => cases h6
        | cons x cps =>
          rw [List.flatMap_cons] at h6
          exact h2 x (h5 x (by simp)).1 ⟨_, h6.symm⟩
      · exact key cp _ h4 (utf8Encode_length_pos cp) h1 (by rw [h3]; simp)

theorem isValidFieldName_iff {U : UnicodeTab} (hU : TablesOk U.isLetter U.isDigit) (s : Bytes) :
    isValidFieldName U s = true ↔ TagName U.isLetter U.isDigit s := by
  unfold isValidFieldName TagName
  by_cases h : s = []
  · subst h; simp
  · rw [if_neg (by rwa [List.length_eq_zero_iff]), validLoop_iff hU _ _ (Nat.le_refl _)]
    simp [h]

/-- Bytes that stand for themselves in a JSON string. -/
def KeyByte (c : UInt8) : Prop := 0x20 ≤ c.toNat ∧ c ≠ c! '"' ∧ c ≠ c! '\\'

theorem plain_body {s : Bytes} (h : ∀ c ∈ s, KeyByte c) : Body s s := by
  induction s with
  | nil => exact .nil
  | cons c t ih =>
    have hc := h c (by simp)
    exact .raw c t t hc.1 hc.2.1 hc.2.2 (ih (fun x hx => h x (by simp [hx])))

theorem tagChar_plain {U : UnicodeTab} (hU : TablesOk U.isLetter U.isDigit) {cp : Nat} (hs : IsScalar cp)
    (h : TagChar U.isLetter U.isDigit cp) : ∀ c ∈ utf8Encode cp, KeyByte c := by
  by_cases hc : cp < 0x80
  · rw [utf8Encode_ascii hc]
    intro c hm
    simp only [List.mem_cons, List.not_mem_nil, or_false] at hm
    subst hm
    have : ∀ n : Fin 128, (n.val ∈ (b! "!#$%&()*+-./:<=>?@[]^_{|}~ ").map UInt8.toNat ∨
        ((0x41 ≤ n.val ∧ n.val ≤ 0x5A) ∨ (0x61 ≤ n.val ∧ n.val ≤ 0x7A)) ∨ (0x30 ≤ n.val ∧ n.val ≤ 0x39)) →
        0x20 ≤ (UInt8.ofNat n.val).toNat ∧ UInt8.ofNat n.val ≠ c! '"' ∧ UInt8.ofNat n.val ≠ c! '\\' := by
      decide +kernel
    refine this ⟨cp, hc⟩ ?_
    rcases h with h | h | h
    · exact Or.inl h
    · exact Or.inr (Or.inl ((hU.letter_ascii cp hc).1 h))
    · exact Or.inr (Or.inr ((hU.digit_ascii cp hc).1 h))
  · intro c hm
    have := utf8Encode_high hs (by omega) c hm
    rw [UInt8.le_iff_toNat_le] at this
    have h8 : (0x80 : UInt8).toNat = 128 := rfl
    refine ⟨by omega, ?_, ?_⟩
    · intro e; rw [e] at this; exact absurd this (by decide)
    · intro e; rw [e] at this; exact absurd this (by decide)

theorem name_plain {U : UnicodeTab} (hU : TablesOk U.isLetter U.isDigit) {s : Bytes}
    (h : TagName U.isLetter U.isDigit s) : ∀ c ∈ s, KeyByte c := by
  obtain ⟨-, cps, h1, rfl⟩ := h
  intro c hc
  obtain ⟨cp, hcp, hm⟩ := List.mem_flatMap.1 hc
  exact tagChar_plain hU (h1 cp hcp).1 (h1 cp hcp).2 c hm

theorem goIdent_tagName {l d : Nat → Bool} {s : Bytes} (h : GoIdent l d s) : TagName l d s := by
  obtain ⟨h0, cps, h1, h2⟩ := h
  refine ⟨h0, cps, fun c hc => ⟨(h1 c hc).1, ?_⟩, h2⟩
  rcases (h1 c hc).2 with h | h | rfl
  · exact Or.inr (Or.inl h)
  · exact Or.inr (Or.inr h)
  · exact Or.inl (by decide)

theorem sepStart_some {s : Bytes} {x : UInt8} (h : sepStart s = some x) :
    (x = 0xA8 ∨ x = 0xA9) ∧ ∃ t, s = 0xE2 :: 0x80 :: x :: t := by
  unfold sepStart at h
  split at h
  · rename_i a b y t
    split at h
    · rename_i hc
      cases h
      simp only [Bool.and_eq_true, decide_eq_true_eq] at hc
      obtain ⟨⟨rfl, rfl⟩, hx⟩ := hc
      have : ∀ x : UInt8, (x &&& ~~~1) = 0xA8 → x = 0xA8 ∨ x = 0xA9 := by
        refine forall_byte ?_
        decide +kernel
      exact ⟨this x hx, t, rfl⟩
    · cases h
  · cases h

theorem htmlEscape_body : ∀ (k : Nat) (s : Bytes), (∀ c ∈ s, KeyByte c) → Body (htmlEscapeFrom k s) (s.drop k)
  | k, [], _ => by
    have : htmlEscapeFrom k [] = [] := by cases k <;> rfl
    rw [this]; simpa using Body.nil
  | k + 1, c :: t, h => by
    rw [htmlEscapeFrom, List.drop_succ_cons]
    exact htmlEscape_body k t (fun x hx => h x (by simp [hx]))
  | 0, c :: t, h => by
    have ht := fun x hx => h x (List.mem_cons_of_mem c hx)
    have hc := h c (by simp)
    rw [htmlEscapeFrom, List.drop_zero]
    split
    · rename_i hh
      have ih := htmlEscape_body 0 t ht
      rw [List.drop_zero] at ih
      have hex : ∃ a b, [hexDigit (c >>> 4), hexDigit (c &&& 0xF)] = [a, b] ∧ hex4 (c! '0') (c! '0') a b = some c.toNat := by
        refine ⟨_, _, rfl, ?_⟩
        simp only [htmlChar, Bool.or_eq_true, decide_eq_true_eq] at hh
        rcases hh with (rfl | rfl) | rfl <;> decide
      obtain ⟨a, b, e1, e2⟩ := hex
      rw [e1]
      have hlt : c.toNat < 0x80 := by
        simp only [htmlChar, Bool.or_eq_true, decide_eq_true_eq] at hh
        rcases hh with (rfl | rfl) | rfl <;> decide
      have := Body.uni _ _ _ _ _ _ _ e2 (by omega) ih
      rw [utf8Encode_ascii hlt] at this
      simpa using this
    · split
      · rename_i x hx
        obtain ⟨hxx, r, hr⟩ := sepStart_some hx
        have ih := htmlEscape_body 2 t ht
        obtain ⟨rfl, rfl⟩ : c = 0xE2 ∧ t = 0x80 :: x :: r := by simpa using hr
        simp only [List.drop_succ_cons, List.drop_zero] at ih
        rcases hxx with rfl | rfl
        · exact Body.uni (c! '2') (c! '0') (c! '2') (c! '8') 0x2028 _ _ (by decide) (by decide) ih
        · exact Body.uni (c! '2') (c! '0') (c! '2') (c! '9') 0x2029 _ _ (by decide) (by decide) ih
      · have ih := htmlEscape_body 0 t ht
        rw [List.drop_zero] at ih
        exact Body.raw c _ _ hc.1 hc.2.1 hc.2.2 ih

theorem htmlEscape_safe : ∀ (k : Nat) (s : Bytes), ∀ c ∈ htmlEscapeFrom k s, c ≠ c! '<' ∧ c ≠ c! '>' ∧ c ≠ c! '&'
  | k, [] => by
    have : htmlEscapeFrom k [] = [] := by cases k <;> rfl
    rw [this]; simp
  | k + 1, c :: t => by
    rw [htmlEscapeFrom]; exact htmlEscape_safe k t
  | 0, c :: t => by
    have hx : ∀ x : UInt8, hexDigit (x &&& 0xF) ≠ c! '<' ∧ hexDigit (x &&& 0xF) ≠ c! '>' ∧ hexDigit (x &&& 0xF) ≠ c! '&' ∧
        hexDigit (x >>> 4) ≠ c! '<' ∧ hexDigit (x >>> 4) ≠ c! '>' ∧ hexDigit (x >>> 4) ≠ c! '&' := by
      refine forall_byte ?_
      decide +kernel
    have hc := hx c
    rw [htmlEscapeFrom]
    split
    · rename_i hh
      have ih := htmlEscape_safe 0 t
      intro y hy
      simp only [List.cons_append, List.nil_append, List.mem_cons] at hy
      rcases hy with rfl | rfl | rfl | rfl | rfl | rfl | hy
      · decide
      · decide
      · decide
      · decide
      · exact ⟨hc.2.2.2.1, hc.2.2.2.2.1, hc.2.2.2.2.2⟩
      · exact ⟨hc.1, hc.2.1, hc.2.2.1⟩
      · exact ih y hy
    · rename_i hh
      split
      · rename_i x hsx
        have hxx := hx x
        have ih := htmlEscape_safe 2 t
        intro y hy
        simp only [List.cons_append, List.nil_append, List.mem_cons] at hy
        rcases hy with rfl | rfl | rfl | rfl | rfl | rfl | hy
        · decide
        · decide
        · decide
        · decide
        · decide
        · exact ⟨hxx.1, hxx.2.1, hxx.2.2.1⟩
        · exact ih y hy
      · have ih := htmlEscape_safe 0 t
        intro y hy
        rcases List.mem_cons.1 hy with rfl | hy
        · simp only [htmlChar, Bool.or_eq_true, decide_eq_true_eq, not_or] at hh
          exact ⟨hh.1.1, hh.1.2, hh.2⟩
        · exact ih y hy

end Jettison.Proofs
