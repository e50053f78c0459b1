import Verif.Proofs.Compact

/-! # Compaction along the JSON grammar -/

namespace Jettison.Proofs
open Jettison.Spec Jettison.Model

/-- Bytes that compaction never treats specially outside strings. -/
def Neutral (c : UInt8) : Prop :=
  htmlChar c = false ∧ c ≠ 0xE2 ∧ c ≠ c! '"' ∧ isSp c = false ∧ c ≠ c! '\\'

instance (c : UInt8) : Decidable (Neutral c) := inferInstanceAs (Decidable (_ ∧ _))

theorem sepFront_ne {c : UInt8} (t : Bytes) (h : c ≠ 0xE2) : sepFront (c :: t) = none := by
  unfold sepFront
  split
  · rename_i e
    simp only [List.cons.injEq] at e
    rw [if_neg]
    rintro ⟨h1, -⟩
    exact h (e.1.trans h1)
  · rfl

theorem cmp_neutral {esc : Bool} {c : UInt8} (t : Bytes) (h : Neutral c) :
    cmp esc false false (c :: t) = c :: cmp esc false false t := by
  obtain ⟨h1, h2, h3, h4, h5⟩ := h
  rw [cmp_out false t (by simp [h1]) (sepFront_ne t h2), if_neg h3, if_neg (by simp [h4])]

theorem cmp_token {esc : Bool} (x t : Bytes) (h : ∀ c ∈ x, Neutral c) :
    cmp esc false false (x ++ t) = x ++ cmp esc false false t := by
  induction x with
  | nil => rfl
  | cons c x ih =>
    rw [List.cons_append, cmp_neutral _ (h c (by simp)), ih (fun c hc => h c (by simp [hc]))]; rfl

theorem ws_isSp : ∀ c : UInt8, IsWs c → htmlChar c = false ∧ c ≠ 0xE2 ∧ c ≠ c! '"' ∧ isSp c = true := by
  refine forall_byte ?_
  decide +kernel

theorem cmp_ws {esc : Bool} (w t : Bytes) (h : Ws w) : cmp esc false false (w ++ t) = cmp esc false false t := by
  induction w with
  | nil => rfl
  | cons c w ih =>
    obtain ⟨h1, h2, h3, h4⟩ := ws_isSp c (h c (by simp))
    rw [List.cons_append, cmp_out false _ (by simp [h1]) (sepFront_ne _ h2), if_neg h3, if_pos h4,
      ih (fun c hc => h c (by simp [hc]))]

/-- Bytes that stand for themselves inside a string, escapes apart. -/
def NeutralIn (c : UInt8) : Prop := htmlChar c = false ∧ c ≠ 0xE2

theorem cmp_skip {esc : Bool} {c : UInt8} (t : Bytes) (h : NeutralIn c) :
    cmp esc true true (c :: t) = c :: cmp esc true false t := by
  rw [cmp_in true t (by simp [h.1]) (sepFront_ne t h.2), if_pos rfl]

theorem cmp_bs {esc : Bool} (t : Bytes) :
    cmp esc true false (c! '\\' :: t) = c! '\\' :: cmp esc true true t := by
  rw [cmp_in false t (by cases esc <;> rfl) (sepFront_ne t (by decide)), if_neg (by simp), if_pos rfl]

theorem cmp_close {esc : Bool} (t : Bytes) :
    cmp esc true false (c! '"' :: t) = c! '"' :: cmp esc false false t := by
  rw [cmp_in false t (by cases esc <;> rfl) (sepFront_ne t (by decide)), if_neg (by simp), if_neg (by decide),
    if_pos rfl]

theorem cmp_open {esc : Bool} (t : Bytes) :
    cmp esc false false (c! '"' :: t) = c! '"' :: cmp esc true false t := by
  rw [cmp_out false t (by cases esc <;> rfl) (sepFront_ne t (by decide)), if_pos rfl]

theorem cmp_raw {esc : Bool} {c : UInt8} (t : Bytes) (h1 : (esc && htmlChar c) = false)
    (h2 : sepFront (c :: t) = none) (h3 : c ≠ c! '"') (h4 : c ≠ c! '\\') :
    cmp esc true false (c :: t) = c :: cmp esc true false t := by
  rw [cmp_in false t h1 h2, if_neg (by simp), if_neg h4, if_neg h3]

theorem hexVal_neutral : ∀ c : UInt8, (hexVal c).isSome → Neutral c := by
  refine forall_byte ?_
  decide +kernel

theorem hex4_some {a b c d : UInt8} {u : Nat} (h : hex4 a b c d = some u) :
    Neutral a ∧ Neutral b ∧ Neutral c ∧ Neutral d := by
  unfold hex4 at h
  refine ⟨hexVal_neutral a ?_, hexVal_neutral b ?_, hexVal_neutral c ?_, hexVal_neutral d ?_⟩
  all_goals
    cases ha : hexVal a <;> cases hb : hexVal b <;> cases hc : hexVal c <;> cases hd : hexVal d <;>
      simp_all

/-- A `\u` escape passes through. -/
theorem cmp_u4 {esc : Bool} {a b c d : UInt8} {u : Nat} (t : Bytes) (h : hex4 a b c d = some u) :
    cmp esc true false (c! '\\' :: c! 'u' :: a :: b :: c :: d :: t) =
      c! '\\' :: c! 'u' :: a :: b :: c :: d :: cmp esc true false t := by
  have one : ∀ (x : UInt8) (t : Bytes), Neutral x → cmp esc true false (x :: t) = x :: cmp esc true false t := by
    intro x t hx
    exact cmp_raw t (by simp [hx.1]) (sepFront_ne t hx.2.1) hx.2.2.1 hx.2.2.2.2
  obtain ⟨ha, hb, hc, hd⟩ := hex4_some h
  rw [cmp_bs, cmp_skip _ ⟨rfl, by decide⟩, one a _ ha, one b _ hb, one c _ hc, one d _ hd]

theorem simpleEscape_neutral : ∀ e : UInt8, (simpleEscape e).isSome → NeutralIn e := by
  intro e h
  have : ∀ e : UInt8, (simpleEscape e).isSome → (htmlChar e = false ∧ e ≠ 0xE2) := by
    refine forall_byte ?_
    decide +kernel
  exact this e h

theorem htmlChar_lt : ∀ c : UInt8, htmlChar c = true → c.toNat < 0x80 ∧ c.toNat < 0x80 := by
  refine forall_byte ?_
  decide +kernel

theorem sepLast_hex : ∀ x : UInt8, sepLast x = true →
    ∃ cp : Nat, (cp = 0x2028 ∨ cp = 0x2029) ∧ hex4 50 48 50 (hexDigit (x &&& 0xF)) = some cp ∧
      utf8Encode cp = [0xE2, 0x80, x] := by
  have h : ∀ x : UInt8, sepLast x = true → x = 0xA8 ∨ x = 0xA9 := by
    refine forall_byte ?_
    decide +kernel
  intro x hx
  rcases h x hx with rfl | rfl
  · exact ⟨0x2028, Or.inl rfl, by decide +kernel, by decide +kernel⟩
  · exact ⟨0x2029, Or.inr rfl, by decide +kernel, by decide +kernel⟩

theorem lowSur_u4 {a b c d : UInt8} {t : Bytes} {u : Nat} (h : hex4 a b c d = some u)
    (hl : LowSur (c! '\\' :: c! 'u' :: a :: b :: c :: d :: t)) : 0xDC00 ≤ u ∧ u < 0xE000 := by
  obtain ⟨a', b', c', d', r, v, e, hv, h1, h2⟩ := hl
  simp only [List.cons.injEq, true_and] at e
  obtain ⟨rfl, rfl, rfl, rfl, -⟩ := e
  rw [h] at hv; cases hv; exact ⟨h1, h2⟩

/-- What compaction does to a string body. -/
structure BodyOk (esc : Bool) (body body' c : Bytes) : Prop where
  rel : Body body' c
  step : ∀ rest, cmp esc true false (body ++ c! '"' :: rest) = body' ++ c! '"' :: cmp esc false false rest
  stable : ∀ rest, cmp esc true false (body' ++ c! '"' :: rest) = body' ++ c! '"' :: cmp esc false false rest
  low : LowSur body' → LowSur body
  pre : ∀ u : Bytes, (∀ x ∈ u, x ≠ c! '\\') → u <+: body' → u <+: body

theorem pre_bs {body' body : Bytes} (t : Bytes) (h : body' = c! '\\' :: t) (u : Bytes)
    (hu : ∀ x ∈ u, x ≠ c! '\\') (hp : u <+: body') : u <+: body := by
  cases u with
  | nil => exact List.nil_prefix
  | cons x u =>
    rw [h] at hp
    obtain ⟨r, hr⟩ := hp
    simp only [List.cons_append, List.cons.injEq] at hr
    exact absurd hr.1 (hu x (by simp))

theorem body_compact (esc : Bool) : ∀ (n : Nat) (body c : Bytes), body.length ≤ n → Body body c →
    ∃ body', BodyOk esc body body' c := by
  intro n
  induction n with
  | zero =>
    intro body c hn h
    cases body with
    | nil =>
      cases h
      exact ⟨[], Body.nil, fun r => cmp_close r, fun r => cmp_close r, id, fun _ _ h => h⟩
    | cons => simp at hn
  | succ n ih =>
    intro body c hn h
    cases h with
    | nil => exact ⟨[], Body.nil, fun r => cmp_close r, fun r => cmp_close r, id, fun _ _ h => h⟩
    | raw x t s h1 h2 h3 hb =>
      simp only [List.length_cons] at hn
      by_cases hh : (esc && htmlChar x) = true
      · -- HTML character
        obtain ⟨t', ok⟩ := ih t s (by omega) hb
        simp only [Bool.and_eq_true] at hh
        have hlt := (htmlChar_lt x hh.2).1
        have hx4 := hex4_byte x hlt
        refine ⟨uEsc x ++ t', ?_, ?_, ?_, ?_, ?_⟩
        · have := Body.uni 48 48 _ _ x.toNat t' s hx4 (by omega) ok.rel
          rw [utf8Encode_ascii hlt] at this
          simpa [uEsc] using this
        · intro rest
          rw [List.cons_append, cmp_html true false _ (by simp [hh]), ok.step]
          simp
        · intro rest
          have : uEsc x ++ t' ++ c! '"' :: rest =
              c! '\\' :: c! 'u' :: 48 :: 48 :: hexDigit (x >>> 4) :: hexDigit (x &&& 0xF) :: (t' ++ c! '"' :: rest) := by
            simp [uEsc]
          rw [this, cmp_u4 _ hx4, ok.stable]
          simp [uEsc]
        · intro hl
          have := lowSur_u4 hx4 hl
          omega
        · exact fun u => pre_bs _ rfl u
      · have hh' : (esc && htmlChar x) = false := by simpa using hh
        by_cases hsep : ∃ y t2, x = 0xE2 ∧ t = 0x80 :: y :: t2 ∧ sepLast y = true
        · -- separator
          obtain ⟨y, t2, rfl, rfl, hy⟩ := hsep
          have hy' := byte_ne_sep y hy
          have inv : ∃ s2, s = 0x80 :: y :: s2 ∧ Body t2 s2 := by
            cases hb with
            | raw _ _ s1 _ _ _ hb1 =>
              cases hb1 with
              | raw _ _ s2 _ _ _ hb2 => exact ⟨s2, rfl, hb2⟩
              | esc => exact absurd rfl hy'.2.2.2.2
              | uni => exact absurd rfl hy'.2.2.2.2
              | low => exact absurd rfl hy'.2.2.2.2
              | pair => exact absurd rfl hy'.2.2.2.2
              | high => exact absurd rfl hy'.2.2.2.2
          obtain ⟨s2, rfl, hb2⟩ := inv
          simp only [List.length_cons] at hn
          obtain ⟨t', ok⟩ := ih t2 s2 (by omega) hb2
          obtain ⟨cp, hcp, hx4, hu⟩ := sepLast_hex y hy
          refine ⟨sepEsc y ++ t', ?_, ?_, ?_, ?_, ?_⟩
          · have := Body.uni 50 48 50 _ cp t' s2 hx4 (by omega) ok.rel
            rw [hu] at this
            simpa [sepEsc] using this
          · intro rest
            rw [List.cons_append, List.cons_append, List.cons_append, cmp_sep esc true false _ hy, if_pos rfl,
              ok.step]
            simp
          · intro rest
            have : sepEsc y ++ t' ++ c! '"' :: rest =
                c! '\\' :: c! 'u' :: 50 :: 48 :: 50 :: hexDigit (y &&& 0xF) :: (t' ++ c! '"' :: rest) := by
              simp [sepEsc]
            rw [this, cmp_u4 _ hx4, ok.stable]
            simp [sepEsc]
          · intro hl
            have := lowSur_u4 hx4 hl
            omega
          · exact fun u => pre_bs _ rfl u
        · obtain ⟨t', ok⟩ := ih t s (by omega) hb
          have nosep : ∀ (w rest : Bytes), w <+: t' ∨ w = t → sepFront (x :: (w ++ c! '"' :: rest)) = none := by
            intro w rest hw
            cases hs : sepFront (x :: (w ++ c! '"' :: rest)) with
            | none => rfl
            | some p =>
              exfalso
              apply hsep
              unfold sepFront at hs
              split at hs
              · rename_i a b c r e
                split at hs
                · rename_i hc
                  simp only [List.cons.injEq] at e
                  obtain ⟨rfl, e⟩ := e
                  match w, e, hw with
                  | [], e, hw => 
                    simp only [List.nil_append, List.cons.injEq] at e
                    rw [← e.1] at hc; exact absurd hc.2.1 (by decide)
                  | [w1], e, hw =>
                    simp only [List.cons_append, List.nil_append, List.cons.injEq] at e
                    rw [← e.2.1] at hc; exact absurd hc.2.2 (by decide)
                  | w1 :: w2 :: w3, e, hw =>
                    simp only [List.cons_append, List.cons.injEq] at e
                    obtain ⟨rfl, rfl, -⟩ := e
                    rcases hw with hw | hw
                    · have hp : [w1, w2] <+: t := by
                        apply ok.pre
                        · intro z hz
                          simp only [List.mem_cons, List.not_mem_nil, or_false] at hz
                          rcases hz with rfl | rfl
                          · rw [hc.2.1]; decide
                          · exact (byte_ne_sep _ hc.2.2).2.2.2.2
                        · exact List.IsPrefix.trans ⟨w3, rfl⟩ hw
                      obtain ⟨r2, hr2⟩ := hp
                      exact ⟨w2, r2, hc.1, by rw [← hr2, ← hc.2.1]; rfl, hc.2.2⟩
                    · exact ⟨w2, w3, hc.1, by rw [← hw, ← hc.2.1], hc.2.2⟩
                · simp at hs
              · simp at hs
          refine ⟨x :: t', Body.raw x t' s h1 h2 h3 ok.rel, ?_, ?_, ?_, ?_⟩
          · intro rest
            rw [List.cons_append, cmp_raw _ hh' (nosep t rest (Or.inr rfl)) h2 h3, ok.step]; rfl
          · intro rest
            rw [List.cons_append, cmp_raw _ hh' (nosep t' rest (Or.inl (List.prefix_refl _))) h2 h3, ok.stable]; rfl
          · rintro ⟨a, b, c, d, r, v, e, -⟩
            simp only [List.cons.injEq] at e
            exact absurd e.1 h3
          · intro u hu hp
            cases u with
            | nil => exact List.nil_prefix
            | cons z u =>
              obtain ⟨r, hr⟩ := hp
              simp only [List.cons_append, List.cons.injEq] at hr
              obtain ⟨rfl, hr⟩ := hr
              obtain ⟨r', hr'⟩ := ok.pre u (fun x hx => hu x (by simp [hx])) ⟨r, hr⟩
              exact ⟨r', by rw [List.cons_append, hr']⟩
    | esc e b t s h1 h2 hb =>
      simp only [List.length_cons] at hn
      obtain ⟨t', ok⟩ := ih t s (by omega) hb
      have he := simpleEscape_neutral e (by rw [h1]; rfl)
      refine ⟨c! '\\' :: e :: t', Body.esc e b t' s h1 h2 ok.rel, ?_, ?_, ?_, fun u => pre_bs _ rfl u⟩
      · intro rest
        rw [List.cons_append, List.cons_append, cmp_bs, cmp_skip _ he, ok.step]; rfl
      · intro rest
        rw [List.cons_append, List.cons_append, cmp_bs, cmp_skip _ he, ok.stable]; rfl
      · rintro ⟨a, b, c, d, r, v, e', -⟩
        simp only [List.cons.injEq] at e'
        exact absurd e'.2.1 h2
    | uni a b c d u t s h1 h2 hb =>
      simp only [List.length_cons] at hn
      obtain ⟨t', ok⟩ := ih t s (by omega) hb
      refine ⟨_, Body.uni a b c d u t' s h1 h2 ok.rel, ?_, ?_, ?_, fun u => pre_bs _ rfl u⟩
      · intro rest
        simp only [List.cons_append]
        rw [cmp_u4 _ h1, ok.step]
      · intro rest
        simp only [List.cons_append]
        rw [cmp_u4 _ h1, ok.stable]
      · intro hl
        have := lowSur_u4 h1 hl
        omega
    | low a b c d u t s h1 h2 h3 hb =>
      simp only [List.length_cons] at hn
      obtain ⟨t', ok⟩ := ih t s (by omega) hb
      refine ⟨_, Body.low a b c d u t' s h1 h2 h3 ok.rel, ?_, ?_, ?_, fun u => pre_bs _ rfl u⟩
      · intro rest
        simp only [List.cons_append]
        rw [cmp_u4 _ h1, ok.step]
      · intro rest
        simp only [List.cons_append]
        rw [cmp_u4 _ h1, ok.stable]
      · intro hl
        exact ⟨a, b, c, d, t, u, rfl, h1, h2, h3⟩
    | pair a b c d l1 l2 l3 l4 u v t s h1 h2 h3 h4 h5 h6 hb =>
      simp only [List.length_cons] at hn
      obtain ⟨t', ok⟩ := ih t s (by omega) hb
      refine ⟨_, Body.pair a b c d l1 l2 l3 l4 u v t' s h1 h2 h3 h4 h5 h6 ok.rel, ?_, ?_, ?_, fun u => pre_bs _ rfl u⟩
      · intro rest
        simp only [List.cons_append]
        rw [cmp_u4 _ h1, cmp_u4 _ h4, ok.step]
      · intro rest
        simp only [List.cons_append]
        rw [cmp_u4 _ h1, cmp_u4 _ h4, ok.stable]
      · intro hl
        have := lowSur_u4 h1 hl
        omega
    | high a b c d u t s h1 h2 h3 h4 hb =>
      simp only [List.length_cons] at hn
      obtain ⟨t', ok⟩ := ih t s (by omega) hb
      refine ⟨_, Body.high a b c d u t' s h1 h2 h3 (fun hl => h4 (ok.low hl)) ok.rel, ?_, ?_, ?_, fun u => pre_bs _ rfl u⟩
      · intro rest
        simp only [List.cons_append]
        rw [cmp_u4 _ h1, ok.step]
      · intro rest
        simp only [List.cons_append]
        rw [cmp_u4 _ h1, ok.stable]
      · intro hl
        have := lowSur_u4 h1 hl
        omega

/-- Bytes of numbers. -/
def NumByte (c : UInt8) : Prop :=
  IsDigit c ∨ c = c! '-' ∨ c = c! '+' ∨ c = c! '.' ∨ c = c! 'e' ∨ c = c! 'E'

instance (c : UInt8) : Decidable (NumByte c) := inferInstanceAs (Decidable (_ ∨ _))

theorem digit19_digit {c : UInt8} (h : IsDigit19 c) : IsDigit c := by
  have : ∀ c : UInt8, IsDigit19 c → IsDigit c := by
    refine forall_byte ?_
    decide +kernel
  exact this c h

theorem number_bytes {s : Bytes} (h : IsNumber s) : ∀ c ∈ s, NumByte c := by
  obtain ⟨sg, i, f, e, rfl, h1, h2, h3, h4⟩ := h
  intro c hc
  simp only [List.mem_append] at hc
  rcases hc with hc | hc | hc | hc
  · rcases h1 with rfl | rfl
    · simp at hc
    · simp at hc; subst hc; right; left; rfl
  · rcases h2 with rfl | ⟨d, ds, rfl, hd, hds⟩
    · simp at hc; subst hc; left; decide
    · left
      simp only [List.mem_cons] at hc
      rcases hc with rfl | hc
      · exact digit19_digit hd
      · exact hds c hc
  · rcases h3 with rfl | ⟨ds, rfl, hds⟩
    · simp at hc
    · simp only [List.mem_cons] at hc
      rcases hc with rfl | hc
      · right; right; right; left; rfl
      · exact Or.inl (hds.2 c hc)
  · rcases h4 with rfl | ⟨x, sg', ds, rfl, hx, hsg, hds⟩
    · simp at hc
    · simp only [List.mem_cons, List.mem_append] at hc
      rcases hc with rfl | hc | hc
      · rcases hx with rfl | rfl
        · right; right; right; right; left; rfl
        · right; right; right; right; right; rfl
      · rcases hsg with rfl | rfl | rfl
        · simp at hc
        · simp at hc; subst hc; right; right; left; rfl
        · simp at hc; subst hc; right; left; rfl
      · exact Or.inl (hds.2 c hc)

theorem numByte_neutral : ∀ c : UInt8, NumByte c → Neutral c := by
  refine forall_byte ?_
  decide +kernel

/-- What compaction does to a piece of text derived from the grammar. -/
structure GrOk (esc : Bool) (nt : Nt) (s s' : Bytes) : Prop where
  gr : Gr NoWs nt s'
  step : ∀ rest, cmp esc false false (s ++ rest) = s' ++ cmp esc false false rest
  stable : ∀ rest, cmp esc false false (s' ++ rest) = s' ++ cmp esc false false rest

theorem strToken_compact (esc : Bool) {body c : Bytes} (h : unescape body = some c) :
    ∃ body', unescape body' = some c ∧
      (∀ rest, cmp esc false false (strToken body ++ rest) = strToken body' ++ cmp esc false false rest) ∧
      (∀ rest, cmp esc false false (strToken body' ++ rest) = strToken body' ++ cmp esc false false rest) := by
  obtain ⟨body', ok⟩ := body_compact esc _ body c (Nat.le_refl _) (unescape_iff_body.1 h)
  refine ⟨body', body_unescape ok.rel, ?_, ?_⟩
  · intro rest
    simp only [strToken, List.cons_append, List.append_assoc, List.nil_append]
    rw [cmp_open, ok.step]
  · intro rest
    simp only [strToken, List.cons_append, List.append_assoc, List.nil_append]
    rw [cmp_open, ok.stable]

theorem gr_compact (esc : Bool) {nt : Nt} {s : Bytes} (h : Gr Ws nt s) : ∃ s', GrOk esc nt s s' := by
  have tok : ∀ x t : Bytes, (∀ c ∈ x, Neutral c) → cmp esc false false (x ++ t) = x ++ cmp esc false false t :=
    fun x t h => cmp_token x t h
  have nt1 : ∀ (c : UInt8) (t : Bytes), Neutral c → cmp esc false false (c :: t) = c :: cmp esc false false t :=
    fun c t h => cmp_neutral t h
  have nLb : Neutral (c! '[') := by decide
  have nRb : Neutral (c! ']') := by decide
  have nLc : Neutral (c! '{') := by decide
  have nRc : Neutral (c! '}') := by decide
  have nCo : Neutral (c! ',') := by decide
  have nCl : Neutral (c! ':') := by decide
  induction h with
  | null =>
    have hn : ∀ c ∈ (b! "null"), Neutral c := by decide
    exact ⟨_, Gr.null, fun r => tok _ r hn, fun r => tok _ r hn⟩
  | true =>
    have hn : ∀ c ∈ (b! "true"), Neutral c := by decide
    exact ⟨_, Gr.true, fun r => tok _ r hn, fun r => tok _ r hn⟩
  | false =>
    have hn : ∀ c ∈ (b! "false"), Neutral c := by decide
    exact ⟨_, Gr.false, fun r => tok _ r hn, fun r => tok _ r hn⟩
  | num s hs =>
    have hn : ∀ c ∈ s, Neutral c := fun c hc => numByte_neutral c (number_bytes hs c hc)
    exact ⟨_, Gr.num s hs, fun r => tok _ r hn, fun r => tok _ r hn⟩
  | str body c hb =>
    obtain ⟨body', h1, h2, h3⟩ := strToken_compact esc hb
    exact ⟨_, Gr.str body' c h1, h2, h3⟩
  | arr0 w hw =>
    refine ⟨_, Gr.arr0 [] rfl, ?_, ?_⟩
    · intro r
      simp only [List.cons_append, List.append_assoc, List.nil_append]
      rw [nt1 _ _ nLb, cmp_ws w _ hw, nt1 _ _ nRb]
    · intro r
      simp only [List.cons_append, List.nil_append]
      rw [nt1 _ _ nLb, nt1 _ _ nRb]
  | arr js s _ ih =>
    obtain ⟨s', ok⟩ := ih
    refine ⟨_, Gr.arr js s' ok.gr, ?_, ?_⟩
    · intro r
      simp only [List.cons_append, List.append_assoc, List.nil_append]
      rw [nt1 _ _ nLb, ok.step, nt1 _ _ nRb]
    · intro r
      simp only [List.cons_append, List.append_assoc, List.nil_append]
      rw [nt1 _ _ nLb, ok.stable, nt1 _ _ nRb]
  | obj0 w hw =>
    refine ⟨_, Gr.obj0 [] rfl, ?_, ?_⟩
    · intro r
      simp only [List.cons_append, List.append_assoc, List.nil_append]
      rw [nt1 _ _ nLc, cmp_ws w _ hw, nt1 _ _ nRc]
    · intro r
      simp only [List.cons_append, List.nil_append]
      rw [nt1 _ _ nLc, nt1 _ _ nRc]
  | obj ms s _ ih =>
    obtain ⟨s', ok⟩ := ih
    refine ⟨_, Gr.obj ms s' ok.gr, ?_, ?_⟩
    · intro r
      simp only [List.cons_append, List.append_assoc, List.nil_append]
      rw [nt1 _ _ nLc, ok.step, nt1 _ _ nRc]
    · intro r
      simp only [List.cons_append, List.append_assoc, List.nil_append]
      rw [nt1 _ _ nLc, ok.stable, nt1 _ _ nRc]
  | elem w1 s w2 j h1 _ h2 ih =>
    obtain ⟨s', ok⟩ := ih
    refine ⟨_, Gr.elem [] s' [] j rfl ok.gr rfl, ?_, ?_⟩
    · intro r
      simp only [List.append_assoc, List.nil_append, List.append_nil]
      rw [cmp_ws w1 _ h1, ok.step, cmp_ws w2 _ h2]
    · intro r
      simp only [List.nil_append, List.append_nil]
      rw [ok.stable]
  | elemCons w1 s w2 t j js h1 _ h2 _ ih1 ih2 =>
    obtain ⟨s', ok1⟩ := ih1
    obtain ⟨t', ok2⟩ := ih2
    refine ⟨_, Gr.elemCons [] s' [] t' j js rfl ok1.gr rfl ok2.gr, ?_, ?_⟩
    · intro r
      simp only [List.append_assoc, List.nil_append, List.cons_append]
      rw [cmp_ws w1 _ h1, ok1.step, cmp_ws w2 _ h2, nt1 _ _ nCo, ok2.step]
    · intro r
      simp only [List.append_assoc, List.nil_append, List.cons_append]
      rw [ok1.stable, nt1 _ _ nCo, ok2.stable]
  | member w1 kb w2 w3 s w4 k j h1 hk h2 h3 _ h4 ih =>
    obtain ⟨s', ok⟩ := ih
    obtain ⟨kb', k1, k2, k3⟩ := strToken_compact esc hk
    refine ⟨_, Gr.member [] kb' [] [] s' [] k j rfl k1 rfl rfl ok.gr rfl, ?_, ?_⟩
    · intro r
      simp only [List.append_assoc, List.nil_append, List.append_nil, List.cons_append]
      rw [cmp_ws w1 _ h1, k2, cmp_ws w2 _ h2, nt1 _ _ nCl, cmp_ws w3 _ h3, ok.step, cmp_ws w4 _ h4]
    · intro r
      simp only [List.append_assoc, List.nil_append, List.append_nil, List.cons_append]
      rw [k3, nt1 _ _ nCl, ok.stable]
  | memberCons w1 kb w2 w3 s w4 t k j ms h1 hk h2 h3 _ h4 _ ih1 ih2 =>
    obtain ⟨s', ok⟩ := ih1
    obtain ⟨t', ok2⟩ := ih2
    obtain ⟨kb', k1, k2, k3⟩ := strToken_compact esc hk
    refine ⟨_, Gr.memberCons [] kb' [] [] s' [] t' k j ms rfl k1 rfl rfl ok.gr rfl ok2.gr, ?_, ?_⟩
    · intro r
      simp only [List.append_assoc, List.nil_append, List.cons_append]
      rw [cmp_ws w1 _ h1, k2, cmp_ws w2 _ h2, nt1 _ _ nCl, cmp_ws w3 _ h3, ok.step, cmp_ws w4 _ h4,
        nt1 _ _ nCo, ok2.step]
    · intro r
      simp only [List.append_assoc, List.nil_append, List.cons_append]
      rw [k3, nt1 _ _ nCl, ok.stable, nt1 _ _ nCo, ok2.stable]

theorem ws_of_text {esc : Bool} {j : Json} {src : Bytes} (h : JsonText j src) :
    ∃ out, cmp esc false false src = out ∧ CompactText j out ∧ cmp esc false false out = out := by
  obtain ⟨w1, s, w2, h1, h2, hg, rfl⟩ := h
  obtain ⟨s', ok⟩ := gr_compact esc hg
  refine ⟨s', ?_, ok.gr, ?_⟩
  · rw [cmp_ws w1 _ h1, ok.step]
    have := cmp_ws (esc := esc) w2 [] h2
    rw [List.append_nil] at this
    rw [this, cmp_nil, List.append_nil]
  · have := ok.stable []
    rwa [List.append_nil, cmp_nil, List.append_nil] at this

theorem compactL_html (n : Nat) : ∀ (i k : Bool) (s : Bytes), ∀ c ∈ compactL true n i k s,
    c ≠ c! '<' ∧ c ≠ c! '>' ∧ c ≠ c! '&' := by
  have hU : ∀ x : UInt8, ∀ c ∈ uEsc x, c ≠ c! '<' ∧ c ≠ c! '>' ∧ c ≠ c! '&' := by
    refine forall_byte ?_
    decide +kernel
  have hS : ∀ x : UInt8, ∀ c ∈ sepEsc x, c ≠ c! '<' ∧ c ≠ c! '>' ∧ c ≠ c! '&' := by
    refine forall_byte ?_
    decide +kernel
  induction n with
  | zero => intro i k s c hc; simp [compactL] at hc
  | succ n ih =>
    intro i k s
    cases s with
    | nil => intro c hc; simp [compactL] at hc
    | cons a t =>
      rw [compactL]
      split
      · intro c hc
        rcases List.mem_append.1 hc with hc | hc
        · exact hU a c hc
        · exact ih _ _ _ c hc
      · rename_i hh
        have ha : a ≠ c! '<' ∧ a ≠ c! '>' ∧ a ≠ c! '&' := by
          simpa [htmlChar, not_or, and_assoc] using hh
        have keep : ∀ i k, ∀ c ∈ a :: compactL true n i k t, c ≠ c! '<' ∧ c ≠ c! '>' ∧ c ≠ c! '&' := by
          intro i k c hc
          rcases List.mem_cons.1 hc with rfl | hc
          · exact ha
          · exact ih _ _ _ c hc
        split
        · intro c hc
          rcases List.mem_append.1 hc with hc | hc
          · exact hS _ c hc
          · exact ih _ _ _ c hc
        · repeat' split
          all_goals first | exact keep _ _ | exact ih _ _ _

end Jettison.Proofs
