import Verif.Proofs.Escape

/-! Helper lemmas: decoding the output of the escaping loop. -/

namespace Jettison.Proofs
open Jettison.Spec Jettison.Model

theorem nextItem_pos {body c n} (h : nextItem body = some (c, n)) : 1 ≤ n := by
  unfold nextItem at h
  repeat' split at h
  all_goals simp at h
  all_goals omega

theorem unescapeAux_fuel : ∀ (f g : Nat) (body : Bytes), body.length ≤ f → body.length ≤ g →
    unescapeAux f body = unescapeAux g body := by
  intro f
  induction f with
  | zero => intro g body h1 h2; cases body with
    | nil => cases g <;> rfl
    | cons a t => simp at h1
  | succ f ih =>
    intro g body h1 h2
    cases body with
    | nil => cases g <;> rfl
    | cons a t =>
      cases g with
      | zero => simp at h2
      | succ g =>
        simp only [unescapeAux]
        cases hn : nextItem (a :: t) with
        | none => rfl
        | some p =>
          obtain ⟨c, n⟩ := p
          simp only
          have := nextItem_pos hn
          rw [ih g]
          · simp at h1 ⊢; omega
          · simp at h2 ⊢; omega

theorem unescape_nil : unescape [] = some [] := rfl

/-- Decoding proceeds item by item. -/
theorem unescape_item (x rest c : Bytes) (hx : x ≠ [])
    (h : nextItem (x ++ rest) = some (c, x.length)) :
    unescape (x ++ rest) = (unescape rest).map (c ++ ·) := by
  unfold unescape
  cases hxr : x ++ rest with
  | nil => simp at hxr; exact absurd hxr.1 hx
  | cons a t =>
    rw [hxr] at h
    simp only [List.length_cons, unescapeAux, h]
    have hlen : (x ++ rest).length = t.length + 1 := by rw [hxr]; rfl
    have hd : (a :: t).drop x.length = rest := by rw [← hxr]; simp
    rw [hd, unescapeAux_fuel t.length rest.length]
    · simp at hlen
      have : 0 < x.length := List.length_pos_iff.mpr hx
      omega
    · omega

theorem nextItem_raw (c : UInt8) (rest : Bytes) (h1 : 0x20 ≤ c.toNat) (h2 : c ≠ c! '"')
    (h3 : c ≠ c! '\\') : nextItem (c :: rest) = some ([c], 1) := by
  unfold nextItem
  simp only [UInt8.lt_iff_toNat_lt]
  rw [if_neg, if_neg h3]
  simp [h2]; omega

theorem unescape_raw (c : UInt8) (rest : Bytes) (h1 : 0x20 ≤ c.toNat) (h2 : c ≠ c! '"')
    (h3 : c ≠ c! '\\') : unescape (c :: rest) = (unescape rest).map ([c] ++ ·) :=
  unescape_item [c] rest [c] (by simp) (nextItem_raw c rest h1 h2 h3)

theorem unescape_high (x rest : Bytes) (h : ∀ b ∈ x, 0x80 ≤ b) :
    unescape (x ++ rest) = (unescape rest).map (x ++ ·) := by
  induction x with
  | nil => rw [List.nil_append]; cases unescape rest <;> rfl
  | cons a t ih =>
    have ha : 128 ≤ a.toNat := by
      have := h a (by simp)
      simpa [UInt8.le_iff_toNat_le] using this
    rw [List.cons_append, unescape_raw a _ (by omega), ih (fun b hb => h b (by simp [hb]))]
    · cases unescape rest <;> simp
    · rintro rfl; simp at ha
    · rintro rfl; simp at ha

theorem hex4_byte (c : UInt8) (h : c.toNat < 0x80) :
    hex4 48 48 (hexDigit (c >>> 4)) (hexDigit (c &&& 0xF)) = some c.toNat := by
  revert c
  refine forall_byte ?_
  decide +kernel

theorem nextItem_u4 (a b c d : UInt8) (u : Nat) (rest : Bytes) (h : hex4 a b c d = some u)
    (hs : ¬ (0xD800 ≤ u ∧ u < 0xE000)) :
    nextItem (c! '\\' :: c! 'u' :: a :: b :: c :: d :: rest) = some (utf8Encode u, 6) := by
  unfold nextItem
  simp only [h]
  rw [if_neg (by decide), if_pos trivial, if_pos trivial, if_neg (by omega), if_neg (by omega)]

theorem nextItem_simple (e b : UInt8) (rest : Bytes) (h : simpleEscape e = some b)
    (hu : e ≠ c! 'u') : nextItem (c! '\\' :: e :: rest) = some ([b], 2) := by
  unfold nextItem
  simp only [h]
  rw [if_neg (by decide), if_pos trivial, if_neg hu]
  rfl

theorem nextItem_escapeAscii (c : UInt8) (rest : Bytes) (h : c.toNat < 0x80) :
    nextItem (escapeAscii c ++ rest) = some ([c], (escapeAscii c).length) := by
  unfold escapeAscii
  split
  · rename_i hc
    simp only [List.cons_append, List.nil_append]
    rw [nextItem_simple c c]
    · rfl
    · simp at hc; rcases hc with rfl | rfl <;> decide
    · simp at hc; rcases hc with rfl | rfl <;> decide
  split
  · rename_i hc; subst hc; exact nextItem_simple _ _ _ (by decide) (by decide)
  split
  · rename_i hc; subst hc; exact nextItem_simple _ _ _ (by decide) (by decide)
  split
  · rename_i hc; subst hc; exact nextItem_simple _ _ _ (by decide) (by decide)
  · simp only [List.cons_append, List.nil_append]
    rw [nextItem_u4 _ _ _ _ c.toNat rest (hex4_byte c h) (by omega), utf8Encode_ascii h]
    simp

theorem escapeAscii_ne_nil (c : UInt8) : escapeAscii c ≠ [] := by
  unfold escapeAscii; (repeat' split) <;> simp

theorem unescape_escapeAscii (c : UInt8) (rest : Bytes) (h : c.toNat < 0x80) :
    unescape (escapeAscii c ++ rest) = (unescape rest).map ([c] ++ ·) :=
  unescape_item _ rest [c] (escapeAscii_ne_nil c) (nextItem_escapeAscii c rest h)

theorem plainAscii_props {o c} (h : plainAscii o c = true) :
    0x20 ≤ c.toNat ∧ c ≠ c! '"' ∧ c ≠ c! '\\' := by
  simp only [plainAscii, Bool.and_eq_true, decide_eq_true_eq, ge_iff_le, UInt8.le_iff_toNat_le] at h
  refine ⟨by simpa using h.1.1.1, h.1.2, h.1.1.2⟩

theorem unescape_sep (cp : Nat) (rest : Bytes) (h : cp = 0x2028 ∨ cp = 0x2029) :
    unescape (b! "\\u202" ++ [hexDigit (UInt8.ofNat (cp &&& 0xF))] ++ rest) =
      (unescape rest).map (utf8Encode cp ++ ·) := by
  apply unescape_item _ _ _ (by simp)
  rcases h with rfl | rfl
  · exact nextItem_u4 50 48 50 56 0x2028 rest (by decide) (by decide)
  · exact nextItem_u4 50 48 50 57 0x2029 rest (by decide) (by decide)

theorem unescape_ufffd (rest : Bytes) :
    unescape (b! "\\ufffd" ++ rest) = (unescape rest).map (replacement ++ ·) := by
  apply unescape_item _ _ _ (by simp)
  exact nextItem_u4 102 102 102 100 0xFFFD rest (by decide) (by decide)

theorem asciiCoerced (c : UInt8) (t s : Bytes) (h : c.toNat < 0x80) (hs : Coerced t s) :
    Coerced (c :: t) ([c] ++ s) := by
  have := Coerced.good c.toNat t s (Or.inl (by omega)) hs
  rw [utf8Encode_ascii h] at this
  simpa using this

/-- With coercion the output decodes to the coerced input. -/
theorem esc_coerced {o : EscOpts} (ho : o.noUTF8Coercion = false) {b out : Bytes}
    (h : Esc o b out) : ∃ s, Coerced b s ∧ unescape out = some s := by
  induction h with
  | nil => exact ⟨[], Coerced.nil, rfl⟩
  | plain c t out h1 h2 h ih =>
    obtain ⟨s, hs, hu⟩ := ih
    obtain ⟨a1, a2, a3⟩ := plainAscii_props h2
    refine ⟨[c] ++ s, asciiCoerced c t s h1 hs, ?_⟩
    rw [List.cons_append, List.nil_append, unescape_raw c out a1 a2 a3, hu]; rfl
  | ascii c t out h1 h2 h ih =>
    obtain ⟨s, hs, hu⟩ := ih
    refine ⟨[c] ++ s, asciiCoerced c t s h1 hs, ?_⟩
    rw [unescape_escapeAscii c out h1, hu]; rfl
  | good cp t out h1 h2 h3 h ih =>
    obtain ⟨s, hs, hu⟩ := ih
    refine ⟨utf8Encode cp ++ s, Coerced.good cp t s h1 hs, ?_⟩
    rw [unescape_high _ _ (utf8Encode_high h1 h2), hu]; rfl
  | sep cp t out h1 h2 h ih =>
    obtain ⟨s, hs, hu⟩ := ih
    refine ⟨utf8Encode cp ++ s, Coerced.good cp t s (by unfold IsScalar; omega) hs, ?_⟩
    rw [unescape_sep cp out h2, hu]; rfl
  | bad b t out h1 h2 h3 h ih =>
    obtain ⟨s, hs, hu⟩ := ih
    refine ⟨replacement ++ s, Coerced.bad b t s h3 hs, ?_⟩
    rw [unescape_ufffd, hu]; rfl
  | raw b t out h1 h2 h3 h ih => rw [ho] at h1; exact absurd h1 (by simp)

/-- Without coercion the output decodes to the input. -/
theorem esc_raw {o : EscOpts} (ho : o.noUTF8Coercion = true) {b out : Bytes}
    (h : Esc o b out) : unescape out = some b := by
  induction h with
  | nil => rfl
  | plain c t out h1 h2 h ih =>
    obtain ⟨a1, a2, a3⟩ := plainAscii_props h2
    rw [List.cons_append, List.nil_append, unescape_raw c out a1 a2 a3, ih]; rfl
  | ascii c t out h1 h2 h ih => rw [unescape_escapeAscii c out h1, ih]; rfl
  | good cp t out h1 h2 h3 h ih => rw [unescape_high _ _ (utf8Encode_high h1 h2), ih]; rfl
  | sep cp t out h1 h2 h ih => rw [ho] at h1; exact absurd h1 (by simp)
  | bad b t out h1 h2 h3 h ih => rw [ho] at h1; exact absurd h1 (by simp)
  | raw b t out h1 h2 h3 h ih =>
    rw [List.cons_append, List.nil_append, unescape_raw b out (by omega), ih]
    · rfl
    · rintro rfl; simp at h2
    · rintro rfl; simp at h2

/-- Encodings are uniquely readable. -/
theorem utf8Encode_inj {a b : Nat} {s t : Bytes} (ha : IsScalar a) (hb : IsScalar b)
    (h : utf8Encode a ++ s = utf8Encode b ++ t) : a = b ∧ s = t := by
  have h1 := decodeRune_encode a s ha
  have h2 := decodeRune_encode b t hb
  rw [h, h2] at h1
  have : a = b := (congrArg Prod.fst h1).symm
  subst this
  exact ⟨rfl, List.append_cancel_left h⟩

theorem coerced_valid {b s : Bytes} (h : Coerced b s) (hv : ValidUtf8 b) : s = b := by
  induction h with
  | nil => rfl
  | good cp rest out hs hr ih =>
    rw [ih]
    obtain ⟨cps, hc, he⟩ := hv
    cases cps with
    | nil => simp at he; exact absurd he.1 (utf8Encode_ne_nil cp)
    | cons c cs =>
      rw [List.flatMap_cons] at he
      obtain ⟨rfl, h2⟩ := utf8Encode_inj hs (hc c (by simp)) he
      exact ⟨cs, fun x hx => hc x (by simp [hx]), h2⟩
  | bad b rest out hb hr ih =>
    obtain ⟨cps, hc, he⟩ := hv
    cases cps with
    | nil => simp at he
    | cons c cs =>
      rw [List.flatMap_cons] at he
      exact absurd ⟨_, he.symm⟩ (hb c (hc c (by simp)))

/-- Coerced text is valid UTF-8. -/
theorem coerced_isValid {b s : Bytes} (h : Coerced b s) : ValidUtf8 s := by
  induction h with
  | nil => exact ⟨[], by simp, rfl⟩
  | good cp rest out hs hr ih =>
    obtain ⟨cps, hc, rfl⟩ := ih
    exact ⟨cp :: cps, by simp [hs]; exact hc, by simp⟩
  | bad b rest out hb hr ih =>
    obtain ⟨cps, hc, rfl⟩ := ih
    refine ⟨0xFFFD :: cps, ?_, ?_⟩
    · simp; exact ⟨by decide, hc⟩
    · rw [List.flatMap_cons]; congr 1

/-! Code points of the output. -/

/-- `cps` spells out `s`. -/
def Spells (cps : List Nat) (s : Bytes) : Prop :=
  (∀ c ∈ cps, IsScalar c) ∧ s = cps.flatMap utf8Encode

theorem spells_ascii (x : Bytes) (h : ∀ c ∈ x, c.toNat < 0x80) : Spells (x.map UInt8.toNat) x := by
  induction x with
  | nil => exact ⟨by simp, rfl⟩
  | cons a t ih =>
    obtain ⟨h1, h2⟩ := ih (fun c hc => h c (by simp [hc]))
    have ha := h a (by simp)
    refine ⟨?_, ?_⟩
    · intro c hc
      simp only [List.map_cons, List.mem_cons] at hc
      rcases hc with rfl | hc
      · exact Or.inl (by omega)
      · exact h1 c hc
    · rw [List.map_cons, List.flatMap_cons, ← h2, utf8Encode_ascii ha]; simp

theorem spells_append {a b s t} (h1 : Spells a s) (h2 : Spells b t) : Spells (a ++ b) (s ++ t) := by
  refine ⟨?_, ?_⟩
  · intro c hc
    rcases List.mem_append.mp hc with h | h
    · exact h1.1 c h
    · exact h2.1 c h
  · rw [List.flatMap_append, ← h1.2, ← h2.2]

/-- Code points that must not appear raw with default options. -/
def Unsafe (o : EscOpts) (c : Nat) : Prop :=
  (o.noHTMLEscaping = false ∧ (c = 0x3C ∨ c = 0x3E ∨ c = 0x26)) ∨ c = 0x2028 ∨ c = 0x2029

theorem escapeAscii_safe (c x : UInt8) (hc : c.toNat < 0x80) (h : x ∈ escapeAscii c) :
    x.toNat < 0x80 ∧ x.toNat ≠ 0x3C ∧ x.toNat ≠ 0x3E ∧ x.toNat ≠ 0x26 := by
  have : ∀ c : UInt8, c.toNat < 0x80 → ∀ x ∈ escapeAscii c,
      x.toNat < 0x80 ∧ x.toNat ≠ 0x3C ∧ x.toNat ≠ 0x3E ∧ x.toNat ≠ 0x26 := by
    refine forall_byte ?_
    decide +kernel
  exact this c hc x h

theorem lit8 : ∀ c ∈ b! "\\u202" ++ [hexDigit (UInt8.ofNat (0x2028 &&& 0xF))],
    c.toNat < 0x80 ∧ c.toNat ≠ 0x3C ∧ c.toNat ≠ 0x3E ∧ c.toNat ≠ 0x26 := by decide +kernel

theorem lit9 : ∀ c ∈ b! "\\u202" ++ [hexDigit (UInt8.ofNat (0x2029 &&& 0xF))],
    c.toNat < 0x80 ∧ c.toNat ≠ 0x3C ∧ c.toNat ≠ 0x3E ∧ c.toNat ≠ 0x26 := by decide +kernel

theorem litd : ∀ c ∈ b! "\\ufffd",
    c.toNat < 0x80 ∧ c.toNat ≠ 0x3C ∧ c.toNat ≠ 0x3E ∧ c.toNat ≠ 0x26 := by decide +kernel

theorem esc_spells {o : EscOpts} (ho : o.noUTF8Coercion = false) {b out : Bytes}
    (h : Esc o b out) : ∃ cps, Spells cps out ∧ ∀ c ∈ cps, ¬ Unsafe o c := by
  have asciiStep : ∀ (x out : Bytes), (∀ c ∈ x, c.toNat < 0x80 ∧
      (o.noHTMLEscaping = true ∨ (c.toNat ≠ 0x3C ∧ c.toNat ≠ 0x3E ∧ c.toNat ≠ 0x26))) →
      (∃ cps, Spells cps out ∧ ∀ c ∈ cps, ¬ Unsafe o c) →
      ∃ cps, Spells cps (x ++ out) ∧ ∀ c ∈ cps, ¬ Unsafe o c := by
    rintro x out hx ⟨cps, h1, h2⟩
    refine ⟨x.map UInt8.toNat ++ cps,
      spells_append (spells_ascii x (fun c hc => (hx c hc).1)) h1, ?_⟩
    intro c hc
    rcases List.mem_append.mp hc with h | h
    · obtain ⟨y, hy, rfl⟩ := List.mem_map.mp h
      have := hx y hy
      unfold Unsafe
      rintro (⟨g1, g2⟩ | g | g)
      · rw [g1] at this; simp at this; omega
      · omega
      · omega
    · exact h2 c h
  induction h with
  | nil => exact ⟨[], ⟨by simp, rfl⟩, by simp⟩
  | plain c t out h1 h2 h ih =>
    refine asciiStep [c] out ?_ ih
    intro x hx
    simp at hx; subst hx
    refine ⟨h1, ?_⟩
    simp only [plainAscii, Bool.and_eq_true, Bool.or_eq_true, decide_eq_true_eq] at h2
    rcases h2.2 with h | h
    · exact Or.inl h
    · right
      refine ⟨?_, ?_, ?_⟩
      · intro e; exact h.1.1 (by rw [← UInt8.toNat_inj]; exact e)
      · intro e; exact h.1.2 (by rw [← UInt8.toNat_inj]; exact e)
      · intro e; exact h.2 (by rw [← UInt8.toNat_inj]; exact e)
  | ascii c t out h1 h2 h ih =>
    refine asciiStep _ out ?_ ih
    intro x hx
    have := escapeAscii_safe c x h1 hx
    exact ⟨this.1, Or.inr this.2⟩
  | good cp t out h1 h2 h3 h ih =>
    obtain ⟨cps, g1, g2⟩ := ih
    refine ⟨[cp] ++ cps, spells_append ⟨by simpa using h1, by simp⟩ g1, ?_⟩
    intro c hc
    rcases List.mem_append.mp hc with h | h
    · simp at h; subst h
      unfold Unsafe
      rw [ho] at h3
      simp at h3
      omega
    · exact g2 c h
  | sep cp t out h1 h2 h ih =>
    refine asciiStep _ out ?_ ih
    rcases h2 with rfl | rfl
    · exact fun c hc => ⟨(lit8 c hc).1, Or.inr (lit8 c hc).2⟩
    · exact fun c hc => ⟨(lit9 c hc).1, Or.inr (lit9 c hc).2⟩
  | bad b t out h1 h2 h3 h ih =>
    refine asciiStep _ out ?_ ih
    exact fun c hc => ⟨(litd c hc).1, Or.inr (litd c hc).2⟩
  | raw b t out h1 h2 h3 h ih => rw [ho] at h1; exact absurd h1 (by simp)

/-- All bytes after the first of an encoding are continuation bytes. -/
theorem utf8Encode_tail {cp : Nat} (_h : IsScalar cp) :
    ∀ b ∈ (utf8Encode cp).tail, b.toNat ≤ 0xBF := by
  unfold IsScalar at _h
  unfold utf8Encode
  intro b hb
  split at hb
  · simp at hb
  split at hb
  · simp only [List.tail_cons, List.mem_cons, List.not_mem_nil, or_false] at hb; subst hb; rw [u8_toNat_ofNat _ (by omega)]; omega
  split at hb
  · simp only [List.tail_cons, List.mem_cons, List.not_mem_nil, or_false] at hb; rcases hb with rfl | rfl <;> rw [u8_toNat_ofNat _ (by omega)] <;> omega
  · simp only [List.tail_cons, List.mem_cons, List.not_mem_nil, or_false] at hb; rcases hb with rfl | rfl | rfl <;> rw [u8_toNat_ofNat _ (by omega)] <;> omega

/-- If the encoding of a multi-byte code point occurs in a UTF-8 text, the text
contains that code point. -/
theorem spells_infix {cps : List Nat} {s : Bytes} (h : Spells cps s) (d : Nat) (hd : IsScalar d)
    (h3 : 0xC0 ≤ (utf8Encode d).head (utf8Encode_ne_nil d)) (hi : utf8Encode d <:+: s) :
    d ∈ cps := by
  induction cps generalizing s with
  | nil =>
    obtain ⟨_, rfl⟩ := h
    obtain ⟨u, v, huv⟩ := hi
    simp at huv
    exact absurd huv.2.1 (utf8Encode_ne_nil d)
  | cons c cs ih =>
    obtain ⟨h1, rfl⟩ := h
    obtain ⟨u, v, huv⟩ := hi
    rw [List.flatMap_cons] at huv
    have hc := h1 c (by simp)
    have hcs : Spells cs (cs.flatMap utf8Encode) := ⟨fun x hx => h1 x (by simp [hx]), rfl⟩
    cases u with
    | nil =>
      have := utf8Encode_inj hd hc (by simpa using huv)
      simp [this.1]
    | cons x u =>
      right
      apply ih hcs
      -- `u ++ enc d ++ v` is what remains after the first byte
      have hne := utf8Encode_ne_nil c
      obtain ⟨y, ys, hy⟩ := List.exists_cons_of_ne_nil hne
      rw [hy, List.cons_append, List.cons_append, List.cons_append] at huv
      injection huv with hxy huv
      have htail : ∀ b ∈ ys, b.toNat ≤ 0xBF := by
        have := utf8Encode_tail hc
        rw [hy] at this; simpa using this
      -- strip the continuation bytes one by one
      clear hy hxy hne
      induction ys generalizing u with
      | nil => exact ⟨u, v, by simpa using huv⟩
      | cons z zs ihz =>
        cases u with
        | nil =>
          obtain ⟨w, ws, hw⟩ := List.exists_cons_of_ne_nil (utf8Encode_ne_nil d)
          have hh : 0xC0 ≤ w := by
            simp only [hw, List.head_cons] at h3; exact h3
          rw [hw] at huv
          simp only [List.nil_append, List.cons_append] at huv
          injection huv with e1 e2
          subst e1
          have := htail w (by simp)
          have h192 : 192 ≤ w.toNat := by simpa [UInt8.le_iff_toNat_le] using hh
          omega
        | cons x' u' =>
          rw [List.cons_append, List.cons_append, List.cons_append] at huv
          injection huv with e1 e2
          exact ihz u' e2 (fun b hb => htail b (by simp [hb]))

end Jettison.Proofs
