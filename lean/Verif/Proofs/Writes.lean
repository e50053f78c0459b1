import Verif.Spec.Writes
import Verif.Proofs.Doc
import Verif.Props.YearZero

/-! # The bytes of strings, JSON texts, numbers, times and durations -/

namespace Jettison.Proofs
open Jettison Jettison.Spec Jettison.Model

/-! ## Strings -/

theorem uForm_hex : ∀ c : UInt8, b! "\\u00" ++ [hexDigit (c >>> 4)] ++ [hexDigit (c &&& 0xF)] = uForm c :=
  forall_byte (by decide +kernel)

theorem uForm_hex2 (c : UInt8) : b! "\\u00" ++ [hexDigit (c >>> 4), hexDigit (c &&& 0xF)] = uForm c := by
  rw [← uForm_hex c]; simp

theorem plainAscii_iff (o : EscOpts) (c : UInt8) : plainAscii o c = true ↔
    0x20 ≤ c.toNat ∧ c ≠ c! '\\' ∧ c ≠ c! '"' ∧ ((!o.noHTMLEscaping) = true → ¬ IsHtml c) := by
  have h32 : (c ≥ 32) ↔ 0x20 ≤ c.toNat := by rw [ge_iff_le, UInt8.le_iff_toNat_le]; exact Iff.rfl
  simp only [plainAscii, Bool.and_eq_true, decide_eq_true_eq, h32, IsHtml, ne_eq, Bool.or_eq_true, and_assoc]
  cases o.noHTMLEscaping <;> simp

theorem esc_spelling {o : EscOpts} {s r : Bytes} (h : Esc o s r) : Spelling (!o.noHTMLEscaping) (!o.noUTF8Coercion) s r := by
  induction h with
  | nil => exact .nil
  | plain c t out h1 h2 _ ih =>
    rw [plainAscii_iff] at h2
    exact .ascii h2.1 h1 h2.2.2.1 h2.2.1 h2.2.2.2 ih
  | ascii c t out h1 h2 _ ih =>
    unfold escapeAscii
    split
    · next h =>
      simp only [Bool.or_eq_true, decide_eq_true_eq] at h
      rcases h with rfl | rfl
      · exact .quote ih
      · exact .backslash ih
    · next hq =>
      split
      · next h => subst h; exact .newline ih
      · next hn =>
        split
        · next h => subst h; exact .ret ih
        · next hr =>
          split
          · next h => subst h; exact .tab ih
          · next ht =>
            rw [uForm_hex]
            by_cases hc : c.toNat < 0x20
            · exact .control hc hn hr ht ih
            · simp only [Bool.or_eq_true, decide_eq_true_eq, not_or] at hq
              have hp : ¬ plainAscii o c = true := by rw [h2]; simp
              rw [plainAscii_iff] at hp
              have : (!o.noHTMLEscaping) = true ∧ IsHtml c := by
                apply Classical.byContradiction
                intro hno
                exact hp ⟨by omega, hq.2, hq.1, fun h1 h2 => hno ⟨h1, h2⟩⟩
              exact .html this.1 this.2 ih
  | good cp t out h1 h2 h3 _ ih =>
    refine .char h1 h2 (fun hc => ?_) ih
    rcases h3 with h3 | h3
    · rw [h3] at hc; cases hc
    · exact h3
  | sep cp t out h1 h2 _ ih =>
    rcases h2 with rfl | rfl
    · exact .sep8 (by rw [h1]; rfl) ih
    · exact .sep9 (by rw [h1]; rfl) ih
  | bad b t out h1 h2 h3 _ ih => exact .replaced (by rw [h1]; rfl) h3 ih
  | raw b t out h1 h2 h3 _ ih => exact .kept (by rw [h1]; rfl) h3 ih

/-- What the escaping appends. -/
theorem appendEscaped_spelled (o : EncOpts) (s : Bytes) : ∃ r, SpelledAs o s r ∧ ∀ dst, appendEscapedBytes dst s o.esc = dst ++ r := by
  cases h : bmHas o.flags .noStringEscaping with
  | true =>
    refine ⟨s, .raw h, fun dst => ?_⟩
    have : o.esc.noStringEscaping = true := h
    simp [appendEscapedBytes, this]
  | false =>
    have he : o.esc.noStringEscaping = false := h
    obtain ⟨r, h1, h2⟩ := appendEscapedBytes_spec [] s o.esc he
    refine ⟨r, .escaped h (esc_spelling h1), fun dst => ?_⟩
    rw [appendEscapedBytes_append, h2, List.nil_append]

theorem encodeString_spelled (o : EncOpts) (s : Bytes) : ∃ r, SpelledAs o s r ∧ ∀ dst, encodeString s dst o.esc = dst ++ (b! "\"" ++ r ++ b! "\"") := by
  obtain ⟨r, h1, h2⟩ := appendEscaped_spelled o s
  exact ⟨r, h1, fun dst => by simp [encodeString, h2]⟩

theorem encodeQuotedString_spelled (o : EncOpts) (s : Bytes) :
    ∃ r, SpelledAs o s r ∧ ∀ dst, encodeQuotedString s dst o.esc = dst ++ (b! "\"\\\"" ++ r ++ b! "\\\"\"") := by
  obtain ⟨r, h1, h2⟩ := appendEscaped_spelled o s
  exact ⟨r, h1, fun dst => by simp [encodeQuotedString, h2]⟩

/-! ## Separators -/

theorem sep_bytes : utf8Encode 0x2028 = [0xE2, 0x80, 0xA8] ∧ utf8Encode 0x2029 = [0xE2, 0x80, 0xA9] := by decide

theorem sepByte : ∀ c : UInt8, (c &&& ~~~1) = 0xA8 → (c = 0xA8 ∧ hexDigit (c &&& 0xF) = c! '8') ∨ (c = 0xA9 ∧ hexDigit (c &&& 0xF) = c! '9') :=
  forall_byte (by decide +kernel)

theorem sepFirst_iff (s : Bytes) : SepFirst s ↔ ∃ x t, s = 0xE2 :: 0x80 :: x :: t ∧ (x = 0xA8 ∨ x = 0xA9) := by
  unfold SepFirst
  rw [sep_bytes.1, sep_bytes.2]
  constructor
  · rintro (⟨t, rfl⟩ | ⟨t, rfl⟩)
    · exact ⟨_, t, rfl, .inl rfl⟩
    · exact ⟨_, t, rfl, .inr rfl⟩
  · rintro ⟨x, t, rfl, rfl | rfl⟩
    · exact .inl ⟨t, rfl⟩
    · exact .inr ⟨t, rfl⟩

theorem htmlChar_iff (c : UInt8) : htmlChar c = true ↔ IsHtml c := by
  simp [htmlChar, IsHtml, or_assoc]

theorem sepStart_none_iff {s : Bytes} (h : sepStart s = none) : ¬ SepFirst s := by
  rw [sepFirst_iff]
  rintro ⟨x, t, rfl, rfl | rfl⟩
  · have : (0xA8 &&& ~~~1 : UInt8) = 0xA8 := by decide
    simp [sepStart, this] at h
  · have : (0xA9 &&& ~~~1 : UInt8) = 0xA8 := by decide
    simp [sepStart, this] at h

theorem htmlEscape_marked : ∀ (n : Nat) (s : Bytes), s.length ≤ n → Marked s (htmlEscapeFrom 0 s)
  | n, [], _ => .nil
  | 0, _ :: _, h => by simp at h
  | n + 1, c :: t, h => by
    simp only [List.length_cons] at h
    rw [htmlEscapeFrom]
    split
    · next hc =>
      rw [uForm_hex2]
      exact .html ((htmlChar_iff c).mp hc) (htmlEscape_marked n t (by omega))
    · next hc =>
      split
      · next x hx =>
        obtain ⟨y, t', rfl⟩ : ∃ y t', t = y :: x :: t' := by
          unfold sepStart at hx
          split at hx
          · split at hx
            · next a b z t' he _ => cases hx; cases he; exact ⟨_, _, rfl⟩
            · cases hx
          · cases hx
        simp only [sepStart] at hx
        split at hx
        · next hs =>
          simp only [Bool.and_eq_true, decide_eq_true_eq] at hs
          obtain ⟨⟨rfl, rfl⟩, hx'⟩ := hs
          have hr : htmlEscapeFrom 2 (0x80 :: x :: t') = htmlEscapeFrom 0 t' := rfl
          rw [hr]
          have ih := htmlEscape_marked n t' (by simp at h; omega)
          rcases sepByte x hx' with ⟨rfl, e⟩ | ⟨rfl, e⟩
          · rw [e]; exact .sep8 ih
          · rw [e]; exact .sep9 ih
        · cases hx
      · next hx => exact .other (fun h => hc ((htmlChar_iff c).mpr h)) (sepStart_none_iff hx) (htmlEscape_marked n t (by omega))

theorem fieldKey_named (o : EncOpts) (name : Bytes) : ∃ r, NamedAs o name r ∧ fieldKey o name = b! "\"" ++ r ++ b! "\":" := by
  unfold fieldKey
  split
  · next h => exact ⟨name, .raw h, rfl⟩
  · next h => exact ⟨htmlEscape name, .marked (by simpa using h) (htmlEscape_marked _ _ (Nat.le_refl _)), rfl⟩

/-! ## Compaction -/

/-- The place that the two flags of the loop stand for. -/
def placeOf : Bool → Bool → Place
  | false, _ => .out
  | true, false => .lit
  | true, true => .esc

theorem isSp_iff (c : UInt8) : isSp c = true ↔ c = c! ' ' ∨ c = c! '\n' ∨ c = c! '\r' ∨ c = c! '\t' := by
  simp [isSp, or_assoc]

theorem sepFront_bytes {s t : Bytes} {x : UInt8} (h : sepFront s = some (x, t)) : s = 0xE2 :: 0x80 :: x :: t ∧ (x &&& ~~~1) = 0xA8 := by
  unfold sepFront at h
  split at h
  · split at h
    · next hs =>
      obtain ⟨rfl, rfl, hl⟩ := hs
      simp only [Option.some.injEq, Prod.mk.injEq] at h
      obtain ⟨rfl, rfl⟩ := h
      exact ⟨rfl, by simpa [sepLast] using hl⟩
    · cases h
  · cases h

theorem sepFront_clear {s : Bytes} (h : sepFront s = none) : ¬ SepFirst s := by
  rw [sepFirst_iff]
  rintro ⟨x, t, rfl, rfl | rfl⟩
  · have : sepLast 0xA8 = true := by decide
    simp [sepFront, this] at h
  · have : sepLast 0xA9 = true := by decide
    simp [sepFront, this] at h

theorem compactL_squeezed (html : Bool) : ∀ (n : Nat) (i k : Bool) (s : Bytes), s.length ≤ n → (i = false → k = false) →
    Squeezed html (placeOf i k) s (compactL html n i k s)
  | 0, i, k, s, h, _ => by
    have : s = [] := List.eq_nil_of_length_eq_zero (by omega)
    subst this
    exact .nil
  | n + 1, i, k, [], _, _ => .nil
  | n + 1, i, k, c :: t, h, hk => by
    simp only [List.length_cons] at h
    have ih : ∀ i k, (i = false → k = false) → Squeezed html (placeOf i k) t (compactL html n i k t) := fun i k hk => compactL_squeezed html n i k t (by omega) hk
    simp only [compactL]
    split
    · next hc =>
      simp only [Bool.and_eq_true] at hc
      rw [show uEsc c = uForm c from uForm_hex2 c]
      exact .html hc.1 ((htmlChar_iff c).mp hc.2) (ih i k hk)
    · next hc =>
      have hno : html = true → ¬ IsHtml c := fun h1 h2 => hc (by rw [h1, (htmlChar_iff c).mpr h2]; rfl)
      cases hs : sepFront (c :: t) with
      | some p =>
        obtain ⟨x, t'⟩ := p
        obtain ⟨he, hx⟩ := sepFront_bytes hs
        rw [he]
        have hl : t'.length ≤ n := by have := congrArg List.length he; simp at this; omega
        simp only [sepEsc]
        have hpl : placeOf i (if i = true then false else k) = (placeOf i k).sep := by cases i <;> cases k <;> rfl
        have ih' := compactL_squeezed html n i (if i = true then false else k) t' hl (by intro h; simp [h, hk h])
        rw [hpl] at ih'
        rcases sepByte x hx with ⟨rfl, e⟩ | ⟨rfl, e⟩
        · rw [e]; exact .sep8 ih'
        · rw [e]; exact .sep9 ih'
      | none =>
        have hsep := sepFront_clear hs
        simp only
        cases i with
        | false =>
          have hk' := hk rfl
          subst hk'
          simp only [Bool.not_false, if_true]
          split
          · next hq => subst hq; exact .begin (ih true false (by simp))
          · next hq =>
            split
            · next hsp => exact .space ((isSp_iff c).mp hsp) (ih false false (by simp))
            · next hsp =>
              rw [isSp_iff] at hsp
              simp only [not_or] at hsp
              exact .out hno hsep hq hsp.1 hsp.2.1 hsp.2.2.1 hsp.2.2.2 (ih false false (by simp))
        | true =>
          cases k with
          | true =>
            simp only [Bool.not_true, Bool.false_eq_true, if_false, if_true]
            exact .esc hno hsep (ih true false (by simp))
          | false =>
            simp only [Bool.not_true, Bool.false_eq_true, if_false]
            split
            · next hb => subst hb; exact .backslash (ih true true (by simp))
            · next hb =>
              split
              · next hq => subst hq; exact .close (ih false false (by simp))
              · next hq => exact .lit hno hsep hq hb (ih true false (by simp))

theorem appendCompactJSON_squeezed (html : Bool) (src : Bytes) : ∃ r, Squeezed html .out src r ∧ ∀ dst, appendCompactJSON dst src html = dst ++ r :=
  ⟨cmp html false false src, compactL_squeezed html _ false false src (Nat.le_refl _) (fun _ => rfl), fun dst => appendCompactJSON_eq dst src html⟩

/-! ## Numbers -/

/-- The float nearest to a number is unique when it is nearer than its neighbours. -/
theorem nearest_iff {w : FWidth} {n d c : Nat} (hc : c + 1 < 2 ^ (w.mant + w.exp)) (hc0 : 0 < c) (h1 : offBy w n d c < offBy w n d (c - 1))
    (h2 : offBy w n d c < offBy w n d (c + 1)) (h3 : n * w.one ≤ finiteUnits w (c + 1) * d) (h4 : finiteUnits w (c - 1) * d ≤ n * w.one) :
    Nearest w n d c ∧ ∀ c', Nearest w n d c' → finiteUnits w c' = finiteUnits w c := by
  have key : ∀ bits, finiteUnits w bits = finiteUnits w c ∨ offBy w n d c < offBy w n d bits := by
    intro bits
    have hu := units_fabs w bits
    have hb : fabs w bits < 2 ^ (w.mant + w.exp) := Nat.mod_lt _ (Nat.two_pow_pos _)
    have hd : offBy w n d (fabs w bits) = offBy w n d bits := by simp [offBy, hu]
    rw [← hd, ← hu]
    generalize fabs w bits = x at hb
    rcases Nat.lt_trichotomy x c with hx | rfl | hx
    · have := units_le (w := w) (a := x) (b := c - 1) (by omega) (by omega)
      have := Nat.mul_le_mul_right d this
      refine .inr (Nat.lt_of_lt_of_le h1 ?_)
      simp only [offBy]; omega
    · exact .inl rfl
    · have := units_le (w := w) (a := c + 1) (b := x) hb (by omega)
      have := Nat.mul_le_mul_right d this
      refine .inr (Nat.lt_of_lt_of_le h2 ?_)
      simp only [offBy]; omega
  refine ⟨fun b => ?_, fun c' h => ?_⟩
  · rcases key b with h | h
    · simp [offBy, h]
    · omega
  · rcases key c' with h' | h'
    · exact h'
    · exact absurd (h c) (by omega)

theorem nearest_1em6 (w : FWidth) : Nearest w 1 (10 ^ 6) (bits1em6 w) ∧ ∀ c, Nearest w 1 (10 ^ 6) c → finiteUnits w c = finiteUnits w (bits1em6 w) := by
  apply nearest_iff <;> (cases w <;> decide +kernel)

theorem nearest_1e21 (w : FWidth) : Nearest w (10 ^ 21) 1 (bits1e21 w) ∧ ∀ c, Nearest w (10 ^ 21) 1 c → finiteUnits w c = finiteUnits w (bits1e21 w) := by
  apply nearest_iff <;> (cases w <;> decide +kernel)

theorem extreme_iff (w : FWidth) (bits : Nat) : useExp w bits = true ↔ Extreme w bits := by
  rw [Props.C09_exponent_form, Extreme]
  refine and_congr_right fun _ => or_congr ⟨fun h => ⟨_, (nearest_1em6 w).1, h⟩, ?_⟩ ⟨fun h => ⟨_, (nearest_1e21 w).1, h⟩, ?_⟩
  · rintro ⟨c, h1, h2⟩
    rwa [(nearest_1em6 w).2 c h1] at h2
  · rintro ⟨c, h1, h2⟩
    rwa [(nearest_1e21 w).2 c h1] at h2

theorem cleanExp_short (p : Bytes) (d : UInt8) : cleanExp (p ++ b! "e-0" ++ [d]) = p ++ b! "e-" ++ [d] := by
  have hl : (p ++ b! "e-0" ++ [d]).length = p.length + 4 := by simp
  have h4 : (p ++ b! "e-0" ++ [d])[p.length]? = some (c! 'e') := by simp
  have h3 : (p ++ b! "e-0" ++ [d])[p.length + 1]? = some (c! '-') := by simp
  have h2 : (p ++ b! "e-0" ++ [d])[p.length + 2]? = some (c! '0') := by simp
  simp only [cleanExp, hl, Nat.add_sub_cancel, show p.length + 4 - 3 = p.length + 1 from by omega, show p.length + 4 - 2 = p.length + 2 from by omega, h4, h3, h2]
  simp only [BEq.rfl, Bool.and_true, ge_iff_le, Nat.le_add_left, decide_true, if_true]
  have e1 : (p ++ b! "e-0" ++ [d]) = (p ++ b! "e-") ++ (c! '0' :: [d]) := by simp
  have e2 : (p ++ b! "e-").length = p.length + 2 := by simp
  rw [e1, ← e2, List.take_left, show p.length + 4 - 1 = (p ++ b! "e-").length + 1 from by simp, List.drop_append]
  simp

theorem cleanExp_other {b : Bytes} (h : ∀ p d, b ≠ p ++ b! "e-0" ++ [d]) : cleanExp b = b := by
  unfold cleanExp
  simp only
  split
  · next hc =>
    simp only [Bool.and_eq_true, ge_iff_le, decide_eq_true_eq, beq_iff_eq] at hc
    obtain ⟨⟨⟨hl, h4⟩, h3⟩, h2⟩ := hc
    obtain ⟨h1', h1⟩ : ∃ d, b[b.length - 1]? = some d := by
      rw [List.getElem?_eq_getElem (by omega)]; exact ⟨_, rfl⟩
    exfalso
    refine h (b.take (b.length - 4)) h1' ?_
    have : ∀ (i : Nat), i < b.length → ∀ x, b[i]? = some x → b.drop i = x :: b.drop (i + 1) := by
      intro i hi x hx
      rw [List.drop_eq_getElem_cons hi]
      rw [List.getElem?_eq_getElem hi] at hx
      cases hx; rfl
    have a4 := this _ (by omega) _ h4
    have a3 := this _ (by omega) _ h3
    have a2 := this _ (by omega) _ h2
    have a1 := this _ (by omega) _ h1
    rw [show b.length - 4 + 1 = b.length - 3 from by omega, a3, show b.length - 3 + 1 = b.length - 2 from by omega, a2,
      show b.length - 2 + 1 = b.length - 1 from by omega, a1, show b.length - 1 + 1 = b.length from by omega, List.drop_length] at a4
    rw [List.append_assoc]
    exact (List.take_append_drop (b.length - 4) b).symm.trans (by rw [a4]; rfl)
  · rfl

theorem appendFloat_text {fmt : FloatFmt} {w : FWidth} {bits : Nat} {b : Bytes} (h : appendFloat fmt [] w bits = .ok b) : FloatText fmt w bits b := by
  have hf : IsFinite w bits := by
    apply Classical.byContradiction
    intro hn
    rw [(Props.C09_nonfinite fmt [] w bits).mpr hn] at h
    cases h
  unfold appendFloat at h
  rw [(finite_iff w bits).2 hf] at h
  simp only [Bool.false_eq_true, if_false, List.nil_append, Except.ok.injEq] at h
  split at h
  · next he =>
    rw [he] at h
    have hx := (extreme_iff w bits).mp he
    subst h
    by_cases hs : ∃ p d, fmt w bits true = p ++ b! "e-0" ++ [d]
    · obtain ⟨p, d, hs⟩ := hs
      rw [hs, cleanExp_short]
      exact .short hf hx hs
    · have hs' : ∀ p d, fmt w bits true ≠ p ++ b! "e-0" ++ [d] := fun p d e => hs ⟨p, d, e⟩
      rw [cleanExp_other hs']
      exact .exp hf hx hs'
  · next he =>
    have hx : ¬ Extreme w bits := fun h => he ((extreme_iff w bits).mpr h)
    simp only [Bool.not_eq_true] at he
    rw [he] at h
    subst h
    exact .plain hf hx

/-! ## Times and durations -/

theorem timeWritten_of {x : GoTime} {y mo d h mi s : Nat} {dst : Bytes} (fmt : GoTime → Bytes → Bytes) (hn : x.nsec < 1000000000)
    (hc : CivilTime (x.unix + x.offset) y mo d h mi s) (hy : y ≤ 9999) (nano : Bool) :
    ∃ text, TimeWritten x nano text ∧ encodeTime fmt x dst false (if nano then .rfc3339Nano else .rfc3339) = .ok (dst ++ (b! "\"" ++ text ++ b! "\"")) := by
  by_cases hl : FromDec31 x
  · obtain ⟨text, h1, h2⟩ := Props.C10_rfc3339_partial fmt x dst nano hn hl (civil_bound hc hy)
    exact ⟨text, .inl ⟨hl, h1⟩, h2⟩
  · obtain ⟨text, h1, h2⟩ := Props.C10_year_zero fmt x dst nano hn (by rw [hc.2.2.2.2]; omega) hl
    exact ⟨text, .inr ⟨hl, h1⟩, h2⟩

theorem time_written {W : World} {o : EncOpts} {x : GoTime} (hu : -9223372036854775808 ≤ x.unix ∧ x.unix < 9223372036854775808) (hn : x.nsec < 1000000000)
    {b : Bytes} (h : (encodeTime W.appendFormat x [] (bmHas o.flags .unixTime) o.layout).res .timeRange [] = .ok b) : HasYear x ∧ TimeText W o x b := by
  have hne : ∃ y mo d h mi s, y ≤ 9999 ∧ CivilTime (x.unix + x.offset) y mo d h mi s := by
    apply Classical.byContradiction
    intro hn
    rw [(Props.C11_year_range W.appendFormat x [] (bmHas o.flags .unixTime) o.layout).mpr hn] at h
    cases h
  refine ⟨hne, ?_⟩
  obtain ⟨y, mo, d, hh, mi, s, hy', hc⟩ := hne
  cases hux : bmHas o.flags .unixTime with
  | true =>
    rw [hux] at h
    obtain ⟨text, h1, h2⟩ := Props.C11_unix_time W.appendFormat x [] o.layout hy' hc hu
    rw [h1] at h
    simp only [BRes.res, List.nil_append, Res.ok.injEq] at h
    subst h
    exact .unix hux h2
  | false =>
    rw [hux] at h
    cases hl : o.layout with
    | rfc3339 =>
      obtain ⟨text, h1, h2⟩ := timeWritten_of (dst := []) W.appendFormat hn hc hy' false
      simp only [Bool.false_eq_true, if_false] at h2
      rw [hl, h2] at h
      simp only [BRes.res, List.nil_append, Res.ok.injEq] at h
      subst h
      exact .rfc3339 hux hl h1
    | rfc3339Nano =>
      obtain ⟨text, h1, h2⟩ := timeWritten_of (dst := []) W.appendFormat hn hc hy' true
      simp only [if_true] at h2
      rw [hl, h2] at h
      simp only [BRes.res, List.nil_append, Res.ok.injEq] at h
      subst h
      exact .nano hux hl h1
    | other l =>
      have hg := goYear_civil x hc
      rw [hl] at h
      simp only [encodeTime] at h
      rw [if_neg (by omega)] at h
      simp only [Bool.false_eq_true, if_false, BRes.res, List.nil_append, Res.ok.injEq] at h
      subst h
      have : TimeText W o x (b! "\"" ++ W.appendFormat x l ++ b! "\"") := .layout hux hl
      simpa using this

theorem fmtNat_lit (n : Nat) : IntLiteral (fmtNat n) (n : Int) := by
  have := IntLiteral.nonneg (fmtNat n) (fmtNat_intPart n)
  rwa [fmtNat_val] at this

theorem durText_clock {u : Nat} {t : Bytes} (h : DurText u t) : ClockText u t := by
  cases h with
  | zero => exact .zero
  | small _ p f unit h0 h1 h2 =>
    rcases h1 with ⟨rfl, rfl, h⟩ | ⟨rfl, rfl, h, h'⟩ | ⟨rfl, rfl, h, h'⟩
    · have hf : f = [] := by
        rcases h2 with ⟨rfl, -⟩ | ⟨a, d, rfl, -, hv⟩
        · rfl
        · have := hv.2.1
          simp at this
      subst hf
      have := fmtNat_lit u
      simp only [Nat.pow_zero, Nat.div_one, List.nil_append]
      exact .ns h0 h this
    · rw [← List.append_assoc]
      exact .us h h' (fmtNat_lit _) h2
    · rw [← List.append_assoc]
      exact .ms h h' (fmtNat_lit _) h2
  | secs _ f h0 h1 h2 =>
    rw [← List.append_assoc]
    refine .s h0 h1 ?_ h2
    have : u / 10 ^ 9 % 60 = u / 1000000000 := by omega
    rw [this]
    exact fmtNat_lit _
  | mins _ f h0 h1 h2 =>
    have e1 : u / 10 ^ 9 / 60 % 60 = u / 60000000000 := by omega
    rw [e1]
    have := ClockText.m h0 h1 (fmtNat_lit _) (fmtNat_lit _) h2
    simpa only [List.append_assoc] using this
  | hours _ f h0 h2 =>
    have e1 : u / 10 ^ 9 / 60 % 60 = u / 60000000000 % 60 := by omega
    have e2 : u / 10 ^ 9 / 60 / 60 = u / 3600000000000 := by omega
    rw [e1, e2]
    have := ClockText.h h0 (fmtNat_lit _) (fmtNat_lit _) (fmtNat_lit _) h2
    simpa only [List.append_assoc] using this

theorem duration_written {W : World} {o : EncOpts} {d : Int64} {b : Bytes}
    (h : (encodeDuration W.fmt W.df d [] o.durFmt).res (.unsupportedValue .f64 (durFloatOf W.df d o.durFmt)) [] = .ok b) : DurationText W o d b := by
  obtain ⟨⟨t1, a1, b1⟩, ⟨t2, a2, b2⟩, ⟨t3, a3, b3⟩⟩ := Props.C13_numeric W.fmt W.df d []
  cases hd : o.durFmt with
  | str =>
    obtain ⟨t, h1, h2⟩ := appendDuration_text (b! "\"") d
    rw [hd] at h
    simp only [encodeDuration, List.nil_append, h1, BRes.res, Res.ok.injEq] at h
    subst h
    have h3 := durText_clock h2
    by_cases hn : d < 0
    · rw [if_pos hn]
      rw [Int64.lt_iff_toInt_lt, Int64.toInt_zero] at hn
      exact .neg hd hn h3
    · rw [if_neg hn]
      rw [Int64.lt_iff_toInt_lt, Int64.toInt_zero] at hn
      exact .str hd (by omega) h3
  | nanoseconds =>
    rw [hd, a1] at h
    simp only [BRes.res, List.nil_append, Res.ok.injEq] at h
    subst h
    exact .ns hd b1
  | microseconds =>
    rw [hd, a2] at h
    simp only [BRes.res, List.nil_append, Res.ok.injEq] at h
    subst h
    exact .us hd b2
  | milliseconds =>
    rw [hd, a3] at h
    simp only [BRes.res, List.nil_append, Res.ok.injEq] at h
    subst h
    exact .ms hd b3
  | seconds =>
    rw [hd] at h
    simp only [encodeDuration] at h
    cases hf : appendFloat W.fmt [] .f64 (W.df.seconds d) with
    | error e => rw [hf] at h; cases h
    | ok b' => rw [hf] at h; cases h; exact .sec hd (appendFloat_text hf)
  | minutes =>
    rw [hd] at h
    simp only [encodeDuration] at h
    cases hf : appendFloat W.fmt [] .f64 (W.df.minutes d) with
    | error e => rw [hf] at h; cases h
    | ok b' => rw [hf] at h; cases h; exact .min hd (appendFloat_text hf)

end Jettison.Proofs
