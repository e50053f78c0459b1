import Verif.Proofs.Spelling

/-! # Texts without markup, without line separators, of valid UTF-8 -/

namespace Jettison.Proofs
open Jettison Jettison.Spec Jettison.Model Jettison.Props

/-- A code point that is not escaped; the characters of HTML count if `esc`. -/
def Fine (esc : Bool) (c : Nat) : Prop := (esc = true → c ≠ 0x3C ∧ c ≠ 0x3E ∧ c ≠ 0x26) ∧ c ≠ 0x2028 ∧ c ≠ 0x2029

/-- A text in code points with a property. -/
def Spelled (Q : Nat → Prop) (b : Bytes) : Prop := ∃ cps, Spells cps b ∧ ∀ c ∈ cps, Q c

variable {W : World} {M : MethV} {o : EncOpts} {Q : Nat → Prop} {t : TId} {ca : Bool} {v : Val} {a b : Bytes}

theorem spelled_append (ha : Spelled Q a) (hb : Spelled Q b) : Spelled Q (a ++ b) := by
  obtain ⟨c1, h1, h2⟩ := ha
  obtain ⟨c2, h3, h4⟩ := hb
  refine ⟨_, spells_append h1 h3, fun c hc => ?_⟩
  rcases List.mem_append.mp hc with h | h
  · exact h2 c h
  · exact h4 c h

theorem spelled_ascii (h : ∀ c ∈ b, c.toNat < 0x80 ∧ Q c.toNat) : Spelled Q b := by
  refine ⟨_, spells_ascii b fun c hc => (h c hc).1, fun c hc => ?_⟩
  obtain ⟨x, hx, rfl⟩ := List.mem_map.mp hc
  exact (h x hx).2

theorem spelled_one {cp : Nat} (h : IsScalar cp) (hq : Q cp) : Spelled Q (utf8Encode cp) :=
  ⟨[cp], ⟨by simpa using h, by simp⟩, by simpa using hq⟩

theorem spelled_mono {Q' : Nat → Prop} (h : Spelled Q b) (hq : ∀ c, Q c → Q' c) : Spelled Q' b := by
  obtain ⟨c, h1, h2⟩ := h
  exact ⟨c, h1, fun x hx => hq x (h2 x hx)⟩

theorem spelled_valid : Spelled (fun _ => True) b ↔ ValidUtf8 b :=
  ⟨fun ⟨c, h, _⟩ => ⟨c, h⟩, fun ⟨c, h⟩ => ⟨c, h, fun _ _ => trivial⟩⟩

theorem fine_ascii {esc : Bool} {c : UInt8} (h : c.toNat < 0x80) (h2 : esc = true → c ≠ c! '<' ∧ c ≠ c! '>' ∧ c ≠ c! '&') : Fine esc c.toNat := by
  refine ⟨fun he => ?_, by omega, by omega⟩
  obtain ⟨h3, h4, h5⟩ := h2 he
  have key : ∀ x : UInt8, c ≠ x → c.toNat ≠ x.toNat := fun x hx h => hx (UInt8.toNat_inj.mp h)
  exact ⟨key _ h3, key _ h4, key _ h5⟩

theorem fine_safe {esc : Bool} (h : SafeText b) : Spelled (Fine esc) b :=
  spelled_ascii fun c hc => ⟨(h c hc).1, fine_ascii (h c hc).1 fun _ => (h c hc).2⟩

theorem safe_uEsc {c : UInt8} (h : htmlChar c = true) : SafeText (uEsc c) := by
  have : ∀ c : UInt8, htmlChar c = true → SafeText (uEsc c) := by
    refine forall_byte ?_
    decide +kernel
  exact this c h

theorem safe_sepEsc {c : UInt8} (h : sepLast c = true) : SafeText (sepEsc c) := by
  have : ∀ c : UInt8, sepLast c = true → SafeText (sepEsc c) := by
    refine forall_byte ?_
    decide +kernel
  exact this c h

theorem high_plain {c : UInt8} (h : 0x80 ≤ c.toNat) : htmlChar c = false ∧ isSp c = false ∧ c ≠ c! '"' ∧ c ≠ c! '\\' := by
  have : ∀ c : UInt8, 0x80 ≤ c.toNat → htmlChar c = false ∧ isSp c = false ∧ c ≠ c! '"' ∧ c ≠ c! '\\' := by
    refine forall_byte ?_
    decide +kernel
  exact this c h

theorem low_plain {esc : Bool} {c : UInt8} (h : c.toNat < 0x80) (h2 : (esc && htmlChar c) = false) : Fine esc c.toNat := by
  refine fine_ascii h fun he => ?_
  subst he
  have : ∀ c : UInt8, htmlChar c = false → c ≠ c! '<' ∧ c ≠ c! '>' ∧ c ≠ c! '&' := by
    refine forall_byte ?_
    decide +kernel
  exact this c (by simpa using h2)

/-- A byte above ASCII is copied. -/
theorem cmp_high (esc i k : Bool) {c : UInt8} (s : Bytes) (h : 0x80 ≤ c.toNat) (h2 : sepFront (c :: s) = none) :
    ∃ k', cmp esc i k (c :: s) = c :: cmp esc i k' s := by
  obtain ⟨g1, g2, g3, g4⟩ := high_plain h
  cases i with
  | false =>
    refine ⟨k, ?_⟩
    rw [cmp_out k s (by simp [g1]) h2, if_neg g3, if_neg (by simp [g2])]
  | true =>
    rw [cmp_in k s (by simp [g1]) h2]
    cases k with
    | true => exact ⟨false, rfl⟩
    | false => exact ⟨false, by rw [if_neg (by simp), if_neg g4, if_neg g3]⟩

theorem cmp_tail (esc i : Bool) (s : Bytes) : ∀ (x : Bytes) (k : Bool), (∀ c ∈ x, 0x80 ≤ c.toNat ∧ c ≠ 0xE2) → ∃ k', cmp esc i k (x ++ s) = x ++ cmp esc i k' s
  | [], k, _ => ⟨k, rfl⟩
  | c :: x, k, h => by
    obtain ⟨k1, h1⟩ := cmp_high esc i k (x ++ s) (h c (by simp)).1 (sepFront_ne _ (h c (by simp)).2)
    obtain ⟨k2, h2⟩ := cmp_tail esc i s x k1 fun y hy => h y (by simp [hy])
    exact ⟨k2, by rw [List.cons_append, h1, h2]; rfl⟩

theorem sepFront_some {s s' : Bytes} {x : UInt8} (h : sepFront s = some (x, s')) : s = 0xE2 :: 0x80 :: x :: s' ∧ sepLast x = true := by
  unfold sepFront at h
  split at h
  · split at h
    · next hc =>
      obtain ⟨rfl, rfl, h3⟩ := hc
      simp only [Option.some.injEq, Prod.mk.injEq] at h
      obtain ⟨rfl, rfl⟩ := h
      exact ⟨rfl, h3⟩
    · cases h
  · cases h

theorem sepLast_cp {x : UInt8} (h : sepLast x = true) : ∃ d, IsScalar d ∧ (d = 0x2028 ∨ d = 0x2029) ∧ utf8Encode d = [0xE2, 0x80, x] := by
  have : ∀ x : UInt8, sepLast x = true → x = 0xA8 ∨ x = 0xA9 := by
    refine forall_byte ?_
    decide +kernel
  rcases this x h with rfl | rfl
  · exact ⟨0x2028, by decide, .inl rfl, by decide⟩
  · exact ⟨0x2029, by decide, .inr rfl, by decide⟩

/-- The bytes after the first of a code point. -/
theorem encode_parts {cp : Nat} (h : IsScalar cp) (h2 : 0x80 ≤ cp) : ∃ c x, utf8Encode cp = c :: x ∧ 0x80 ≤ c.toNat ∧ ∀ y ∈ x, 0x80 ≤ y.toNat ∧ y ≠ 0xE2 := by
  have hh := utf8Encode_high h h2
  have ht := utf8Encode_tail h
  cases he : utf8Encode cp with
  | nil => exact absurd he (utf8Encode_ne_nil cp)
  | cons c x =>
    rw [he] at hh ht
    have hc : ∀ y ∈ c :: x, 0x80 ≤ y.toNat := fun y hy => by simpa using UInt8.le_iff_toNat_le.mp (hh y hy)
    refine ⟨c, x, rfl, hc c (by simp), fun y hy => ⟨hc y (by simp [hy]), ?_⟩⟩
    rintro rfl
    have := ht _ hy
    exact absurd this (by decide)

theorem cmp_spelled (esc : Bool) : ∀ (cps : List Nat) (i k : Bool), (∀ c ∈ cps, IsScalar c) → Spelled (Fine esc) (cmp esc i k (cps.flatMap utf8Encode))
  | [], i, k, _ => ⟨[], ⟨by simp, rfl⟩, by simp⟩
  | cp :: cps, i, k, h => by
    have ih := fun i k => cmp_spelled esc cps i k fun c hc => h c (by simp [hc])
    have hcp := h cp (by simp)
    rw [List.flatMap_cons]
    by_cases hl : cp < 0x80
    · rw [utf8Encode_ascii hl, List.cons_append, List.nil_append]
      generalize cps.flatMap utf8Encode = s at ih
      have hn : (UInt8.ofNat cp).toNat = cp := by
        rw [UInt8.toNat_ofNat']; exact Nat.mod_eq_of_lt (by omega)
      have hlow : (UInt8.ofNat cp).toNat < 0x80 := by rw [hn]; exact hl
      generalize UInt8.ofNat cp = c at hlow
      cases hh : esc && htmlChar c with
      | true =>
        rw [cmp_html i k s hh]
        rw [Bool.and_eq_true] at hh
        exact spelled_append (fine_safe (safe_uEsc hh.2)) (ih i k)
      | false =>
        have hsf := sepFront_ne (c := c) s (by rintro rfl; exact absurd hlow (by decide))
        have hone : Spelled (Fine esc) [c] := spelled_ascii fun x hx => by
          rw [List.mem_singleton] at hx
          subst hx
          exact ⟨hlow, low_plain hlow hh⟩
        have hc : ∀ i k, Spelled (Fine esc) (c :: cmp esc i k s) := fun i k => spelled_append hone (ih i k)
        cases i with
        | false =>
          rw [cmp_out k s hh hsf]
          (repeat' split) <;> first | exact hc _ _ | exact ih _ _
        | true =>
          rw [cmp_in k s hh hsf]
          (repeat' split) <;> exact hc _ _
    · obtain ⟨c, x, he, hc, hx⟩ := encode_parts hcp (by omega)
      cases hs : sepFront (utf8Encode cp ++ cps.flatMap utf8Encode) with
      | some p =>
        obtain ⟨y, s'⟩ := p
        obtain ⟨h1, h2⟩ := sepFront_some hs
        obtain ⟨d, hd, -, h3⟩ := sepLast_cp h2
        have h4 : utf8Encode cp ++ cps.flatMap utf8Encode = utf8Encode d ++ s' := by rw [h1, h3]; rfl
        obtain ⟨-, rfl⟩ := utf8Encode_inj hcp hd h4
        rw [h1, cmp_sep esc i k _ h2]
        exact spelled_append (fine_safe (safe_sepEsc h2)) (ih _ _)
      | none =>
        have hne : cp ≠ 0x2028 ∧ cp ≠ 0x2029 := by
          constructor
          · rintro rfl
            exact absurd hs (by rw [show utf8Encode 0x2028 = [0xE2, 0x80, 0xA8] by decide]; simp [sepFront, sepLast]; decide)
          · rintro rfl
            exact absurd hs (by rw [show utf8Encode 0x2029 = [0xE2, 0x80, 0xA9] by decide]; simp [sepFront, sepLast]; decide)
        have hone := spelled_one (Q := Fine esc) hcp ⟨fun _ => by omega, hne⟩
        rw [he, List.cons_append] at hs ⊢
        obtain ⟨k1, e1⟩ := cmp_high esc i k _ hc hs
        obtain ⟨k2, e2⟩ := cmp_tail esc i (cps.flatMap utf8Encode) x k1 hx
        rw [e1, e2, ← List.cons_append, ← he]
        exact spelled_append hone (ih _ _)

theorem compact_spelled (esc : Bool) (h : ValidUtf8 b) : Spelled (Fine esc) (appendCompactJSON [] b esc) := by
  obtain ⟨cps, h1, rfl⟩ := h
  rw [appendCompactJSON_eq, List.nil_append]
  exact cmp_spelled esc cps _ _ h1

/-! ## Keys -/

theorem htmlFrom_high {c : UInt8} (s : Bytes) (h : 0x80 ≤ c.toNat) (h2 : sepStart (c :: s) = none) : htmlEscapeFrom 0 (c :: s) = c :: htmlEscapeFrom 0 s := by
  rw [htmlEscapeFrom, if_neg (by simp [(high_plain h).1]), h2]

theorem sepStart_ne {c : UInt8} (s : Bytes) (h : c ≠ 0xE2) : sepStart (c :: s) = none := by
  unfold sepStart
  split
  · rename_i e
    simp only [List.cons.injEq] at e
    rw [if_neg]
    simp only [Bool.and_eq_true, decide_eq_true_eq, not_and]
    rintro h1
    exact absurd (e.1.trans h1.1) h
  · rfl

theorem htmlFrom_tail (s : Bytes) : ∀ x : Bytes, (∀ c ∈ x, 0x80 ≤ c.toNat ∧ c ≠ 0xE2) → htmlEscapeFrom 0 (x ++ s) = x ++ htmlEscapeFrom 0 s
  | [], _ => rfl
  | c :: x, h => by
    rw [List.cons_append, htmlFrom_high _ (h c (by simp)).1 (sepStart_ne _ (h c (by simp)).2), htmlFrom_tail s x fun y hy => h y (by simp [hy])]
    rfl

theorem sepStart_form {s : Bytes} {x : UInt8} (h : sepStart s = some x) : ∃ s', s = 0xE2 :: 0x80 :: x :: s' ∧ sepLast x = true := by
  unfold sepStart at h
  split at h
  · split at h
    · next hc =>
      simp only [Bool.and_eq_true, decide_eq_true_eq] at hc
      obtain ⟨⟨rfl, rfl⟩, h3⟩ := hc
      cases h
      exact ⟨_, rfl, by simpa [sepLast] using h3⟩
    · cases h
  · cases h

theorem html_spelled : ∀ cps : List Nat, (∀ c ∈ cps, IsScalar c) → Spelled (Fine true) (htmlEscapeFrom 0 (cps.flatMap utf8Encode))
  | [], _ => ⟨[], ⟨by simp, rfl⟩, by simp⟩
  | cp :: cps, h => by
    have ih := html_spelled cps fun c hc => h c (by simp [hc])
    have hcp := h cp (by simp)
    rw [List.flatMap_cons]
    by_cases hl : cp < 0x80
    · rw [utf8Encode_ascii hl, List.cons_append, List.nil_append]
      generalize cps.flatMap utf8Encode = s at ih
      have hn : (UInt8.ofNat cp).toNat = cp := by
        rw [UInt8.toNat_ofNat']; exact Nat.mod_eq_of_lt (by omega)
      have hlow : (UInt8.ofNat cp).toNat < 0x80 := by rw [hn]; exact hl
      generalize UInt8.ofNat cp = c at hlow
      rw [htmlEscapeFrom]
      cases hh : htmlChar c with
      | true =>
        rw [if_pos rfl]
        exact spelled_append (fine_safe (safe_uEsc hh)) ih
      | false =>
        rw [if_neg (by simp), sepStart_ne (c := c) s (by rintro rfl; exact absurd hlow (by decide))]
        exact spelled_append (a := [c]) (spelled_ascii fun x hx => by
          rw [List.mem_singleton] at hx
          subst hx
          exact ⟨hlow, low_plain hlow (by simp [hh])⟩) ih
    · obtain ⟨c, x, he, hc, hx⟩ := encode_parts hcp (by omega)
      cases hs : sepStart (utf8Encode cp ++ cps.flatMap utf8Encode) with
      | some y =>
        obtain ⟨s', h1, h2⟩ := sepStart_form hs
        obtain ⟨d, hd, -, h3⟩ := sepLast_cp h2
        have h4 : utf8Encode cp ++ cps.flatMap utf8Encode = utf8Encode d ++ s' := by rw [h1, h3]; rfl
        obtain ⟨-, rfl⟩ := utf8Encode_inj hcp hd h4
        rw [h1] at hs ⊢
        rw [htmlEscapeFrom, if_neg (by decide), hs]
        exact spelled_append (fine_safe (safe_sepEsc h2)) ih
      | none =>
        have hne : cp ≠ 0x2028 ∧ cp ≠ 0x2029 := by
          constructor
          · rintro rfl
            exact absurd hs (by rw [show utf8Encode 0x2028 = [0xE2, 0x80, 0xA8] by decide]; simp [sepStart]; decide)
          · rintro rfl
            exact absurd hs (by rw [show utf8Encode 0x2029 = [0xE2, 0x80, 0xA9] by decide]; simp [sepStart]; decide)
        have hone := spelled_one (Q := Fine true) hcp ⟨fun _ => by omega, hne⟩
        rw [he, List.cons_append] at hs ⊢
        rw [htmlFrom_high _ hc hs, htmlFrom_tail _ x hx, ← List.cons_append, ← he]
        exact spelled_append hone ih

theorem key_fine (hg : GoNames W.U.isLetter W.U.isDigit W.E) {m : MField} (h : ChosenField W.U.isLetter W.U.isDigit W.E t m)
    (hh : bmHas o.flags .noHTMLEscaping = false) : Spelled (Fine true) (fieldKey o m.name) := by
  obtain ⟨-, cps, h1, h2⟩ := chosen_name hg h
  simp only [fieldKey, hh, Bool.false_eq_true, if_false, keyEscHTML]
  rw [h2]
  exact spelled_append (spelled_append (fine_safe (by decide)) (html_spelled cps fun c hc => (h1 c hc).1)) (fine_safe (by decide))

theorem key_valid (hg : GoNames W.U.isLetter W.U.isDigit W.E) {m : MField} (h : ChosenField W.U.isLetter W.U.isDigit W.E t m) :
    ValidUtf8 (fieldKey o m.name) := by
  rw [← spelled_valid]
  cases hh : bmHas o.flags .noHTMLEscaping with
  | false => exact spelled_mono (key_fine hg h hh) fun _ _ => trivial
  | true =>
    obtain ⟨-, cps, h1, h2⟩ := chosen_name hg h
    simp only [fieldKey, hh, if_true, keyNonEsc]
    refine spelled_append (spelled_append (spelled_mono (fine_safe (esc := true) (by decide)) fun _ _ => trivial) ?_)
      (spelled_mono (fine_safe (esc := true) (by decide)) fun _ _ => trivial)
    exact spelled_valid.mpr ⟨cps, fun c hc => (h1 c hc).1, h2⟩

/-! ## The three properties -/

theorem str_fine (h1 : bmHas o.flags .noStringEscaping = false) (h2 : bmHas o.flags .noUTF8Coercion = false) (s : Bytes) :
    Spelled (Fine (!bmHas o.flags .noHTMLEscaping)) (appendEscapedBytes [] s o.esc) := by
  obtain ⟨out, he, h⟩ := appendEscapedBytes_spec [] s o.esc h1
  obtain ⟨cps, h3, h4⟩ := esc_spells (o := o.esc) h2 he
  rw [h, List.nil_append]
  refine ⟨cps, h3, fun c hc => ?_⟩
  have := h4 c hc
  simp only [Unsafe, EncOpts.esc] at this
  refine ⟨fun hh => ?_, fun h => this (.inr (.inl h)), fun h => this (.inr (.inr h))⟩
  have hh' : bmHas o.flags .noHTMLEscaping = false := by simpa using hh
  exact ⟨fun h => this (.inl ⟨hh', .inl h⟩), fun h => this (.inl ⟨hh', .inr (.inl h)⟩), fun h => this (.inl ⟨hh', .inr (.inr h)⟩)⟩

/-- Texts in fine code points. -/
theorem letters_fine (hg : GoNames W.U.isLetter W.U.isDigit W.E) (h1 : bmHas o.flags .noStringEscaping = false)
    (h2 : bmHas o.flags .noHTMLEscaping = false) (h3 : bmHas o.flags .noUTF8Coercion = false) : Letters W o (Spelled (Fine true)) where
  app := spelled_append
  safe := fine_safe
  micro := ⟨[0xB5, 0x73], ⟨by decide, by decide⟩, by simp [Fine]⟩
  str s := by have := str_fine h1 h3 s; rwa [h2] at this
  key _ _ h := key_fine hg h h2

/-- Texts of valid UTF-8. -/
theorem letters_valid (hg : GoNames W.U.isLetter W.U.isDigit W.E) (h1 : bmHas o.flags .noStringEscaping = false)
    (h3 : bmHas o.flags .noUTF8Coercion = false) : Letters W o ValidUtf8 where
  app ha hb := spelled_valid.mp (spelled_append (spelled_valid.mpr ha) (spelled_valid.mpr hb))
  safe h := spelled_valid.mp (spelled_mono (fine_safe (esc := true) h) fun _ _ => trivial)
  micro := ⟨[0xB5, 0x73], by decide, by decide⟩
  str s := spelled_valid.mp (spelled_mono (str_fine h1 h3 s) fun _ _ => trivial)
  key _ _ h := key_valid hg h

theorem noMarkup_iff : NoMarkup b ↔ ∀ c ∈ b, c ≠ c! '<' ∧ c ≠ c! '>' ∧ c ≠ c! '&' := by
  constructor
  · rintro ⟨h1, h2, h3⟩ c hc
    exact ⟨fun h => h1 (h ▸ hc), fun h => h2 (h ▸ hc), fun h => h3 (h ▸ hc)⟩
  · intro h
    exact ⟨fun hc => (h _ hc).1 rfl, fun hc => (h _ hc).2.1 rfl, fun hc => (h _ hc).2.2 rfl⟩

theorem markup_append (ha : NoMarkup a) (hb : NoMarkup b) : NoMarkup (a ++ b) := by
  rw [noMarkup_iff] at *
  intro c hc
  rcases List.mem_append.mp hc with h | h
  · exact ha c h
  · exact hb c h

theorem markup_safe (h : SafeText b) : NoMarkup b := noMarkup_iff.mpr fun c hc => (h c hc).2

theorem markup_high (h : ∀ c ∈ b, (0x80 : UInt8) ≤ c) : NoMarkup b := by
  refine noMarkup_iff.mpr fun c hc => ?_
  have : ∀ c : UInt8, (0x80 : UInt8) ≤ c → c ≠ c! '<' ∧ c ≠ c! '>' ∧ c ≠ c! '&' := by
    refine forall_byte ?_
    decide +kernel
  exact this c (h c hc)

theorem esc_markup {o : EscOpts} (ho : o.noHTMLEscaping = false) {b out : Bytes} (h : Esc o b out) : NoMarkup out := by
  induction h with
  | nil => exact ⟨by simp, by simp, by simp⟩
  | plain c t out h1 h2 h ih =>
    refine markup_append (noMarkup_iff.mpr fun x hx => ?_) ih
    rw [List.mem_singleton] at hx
    subst hx
    simp only [plainAscii, ho, Bool.false_or, Bool.and_eq_true, decide_eq_true_eq] at h2
    exact ⟨h2.2.1.1, h2.2.1.2, h2.2.2⟩
  | ascii c t out h1 h2 h ih =>
    refine markup_append (markup_safe fun x hx => ?_) ih
    obtain ⟨g1, g2, g3, g4⟩ := escapeAscii_safe c x h1 hx
    exact ⟨g1, fun h => g2 (by rw [h]; rfl), fun h => g3 (by rw [h]; rfl), fun h => g4 (by rw [h]; rfl)⟩
  | good cp t out h1 h2 h3 h ih => exact markup_append (markup_high (utf8Encode_high h1 h2)) ih
  | sep cp t out h1 h2 h ih =>
    refine markup_append (markup_safe ?_) ih
    rcases h2 with rfl | rfl <;> decide +kernel
  | bad b t out h1 h2 h3 h ih => exact markup_append (markup_safe (by decide)) ih
  | raw b t out h1 h2 h3 h ih =>
    refine markup_append (markup_high fun x hx => ?_) ih
    rw [List.mem_singleton] at hx
    subst hx
    exact UInt8.le_iff_toNat_le.mpr h2

/-- Texts without markup. -/
theorem letters_markup (h1 : bmHas o.flags .noStringEscaping = false) (h2 : bmHas o.flags .noHTMLEscaping = false) : Letters W o NoMarkup where
  app := markup_append
  safe := markup_safe
  micro := by decide
  str s := by
    obtain ⟨out, he, h⟩ := appendEscapedBytes_spec [] s o.esc h1
    rw [h, List.nil_append]
    exact esc_markup (o := o.esc) h2 he
  key _ m _ := by
    simp only [fieldKey, h2, Bool.false_eq_true, if_false, keyEscHTML]
    exact markup_append (markup_append (by decide) (noMarkup_iff.mpr (htmlEscape_safe 0 m.name))) (by decide)

theorem spelled_markup (h : Spelled (Fine true) b) : NoMarkup b ∧ NoSeparator b := by
  obtain ⟨cps, h1, h2⟩ := h
  have low : ∀ d : Nat, d < 0x80 → UInt8.ofNat d ∈ b → d ∈ cps := by
    intro d hd hm
    rw [h1.2] at hm
    obtain ⟨cp, hcp, hm⟩ := List.mem_flatMap.mp hm
    by_cases hl : cp < 0x80
    · rw [utf8Encode_ascii hl, List.mem_singleton] at hm
      have := congrArg UInt8.toNat hm
      rw [UInt8.toNat_ofNat', UInt8.toNat_ofNat'] at this
      have : d = cp := by omega
      exact this ▸ hcp
    · have := UInt8.le_iff_toNat_le.mp (utf8Encode_high (h1.1 cp hcp) (by omega) _ hm)
      rw [UInt8.toNat_ofNat'] at this
      have : (0x80 : UInt8).toNat = 128 := rfl
      omega
  refine ⟨⟨fun h => ?_, fun h => ?_, fun h => ?_⟩, fun h => ?_, fun h => ?_⟩
  · exact ((h2 _ (low 0x3C (by decide) h)).1 rfl).1 rfl
  · exact ((h2 _ (low 0x3E (by decide) h)).1 rfl).2.1 rfl
  · exact ((h2 _ (low 0x26 (by decide) h)).1 rfl).2.2 rfl
  · exact (h2 _ (spells_infix h1 0x2028 (by decide) (by decide) h)).2.1 rfl
  · exact (h2 _ (spells_infix h1 0x2029 (by decide) (by decide) h)).2.2 rfl

/-- The converse. -/
theorem markup_spelled (h : ValidUtf8 b) (h1 : NoMarkup b) (h2 : NoSeparator b) : Spelled (Fine true) b := by
  obtain ⟨cps, h3, h4⟩ := h
  refine ⟨cps, ⟨h3, h4⟩, fun c hc => ?_⟩
  have hin : ∀ x ∈ utf8Encode c, x ∈ b := fun x hx => by rw [h4]; exact List.mem_flatMap.mpr ⟨c, hc, hx⟩
  have hinf : utf8Encode c <:+: b := by
    obtain ⟨l1, l2, rfl⟩ := List.append_of_mem hc
    rw [h4, List.flatMap_append, List.flatMap_cons]
    exact ⟨_, _, by rw [List.append_assoc]⟩
  refine ⟨fun _ => ⟨?_, ?_, ?_⟩, ?_, ?_⟩
  · rintro rfl; exact h1.1 (hin _ (by decide))
  · rintro rfl; exact h1.2.1 (hin _ (by decide))
  · rintro rfl; exact h1.2.2 (hin _ (by decide))
  · rintro rfl; exact h2.1 hinf
  · rintro rfl; exact h2.2 hinf

end Jettison.Proofs
