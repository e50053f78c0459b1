import Verif.Proofs.Writes
import Verif.Proofs.Lossless
import Verif.Proofs.Judged

/-!
# The description of the format is complete: the texts of the leaves are determined
-/

namespace Jettison.Proofs
open Jettison Jettison.Spec Jettison.Model

/-! ## Texts read from left to right -/

/-- A relation that emits, at each position, what a function of the rest says determines the text. -/
theorem stepwise_unique {σ : Type} {R : σ → Bytes → Bytes → Prop} (f : σ → Bytes → Bytes × Nat × σ)
    (h : ∀ p s r, R p s r → (s = [] ∧ r = []) ∨ (s ≠ [] ∧ 0 < (f p s).2.1 ∧ ∃ r', r = (f p s).1 ++ r' ∧ R (f p s).2.2 (s.drop (f p s).2.1) r')) :
    ∀ (n : Nat) p s r r', s.length ≤ n → R p s r → R p s r' → r = r' := by
  intro n
  induction n with
  | zero =>
    intro p s r r' hn h1 h2
    have : s = [] := List.eq_nil_of_length_eq_zero (by omega)
    rcases h _ _ _ h1 with ⟨-, h1⟩ | ⟨h1, -⟩
    · rcases h _ _ _ h2 with ⟨-, h2⟩ | ⟨h2, -⟩
      · rw [h1, h2]
      · exact absurd this h2
    · exact absurd this h1
  | succ n ih =>
    intro p s r r' hn h1 h2
    rcases h _ _ _ h1 with ⟨e1, g1⟩ | ⟨e1, l1, r1, rfl, g1⟩
    · rcases h _ _ _ h2 with ⟨-, g2⟩ | ⟨g2, -⟩
      · rw [g1, g2]
      · exact absurd e1 g2
    · rcases h _ _ _ h2 with ⟨e2, -⟩ | ⟨-, -, r2, rfl, g2⟩
      · exact absurd e2 e1
      · rw [ih _ _ _ _ (by rw [List.length_drop]; omega) g1 g2]

theorem step_of {σ : Type} {R : σ → Bytes → Bytes → Prop} {f : σ → Bytes → Bytes × Nat × σ} {p p' : σ} {s e r : Bytes} {k : Nat}
    (h : f p s = (e, k, p')) (hs : s ≠ []) (hk : 0 < k) (hr : R p' (s.drop k) r) :
    (s = [] ∧ e ++ r = []) ∨ (s ≠ [] ∧ 0 < (f p s).2.1 ∧ ∃ r', e ++ r = (f p s).1 ++ r' ∧ R (f p s).2.2 (s.drop (f p s).2.1) r') := by
  rw [h]; exact .inr ⟨hs, hk, r, rfl, hr⟩

open Classical in
/-- What stands for the front of the content of a string, and how long it is. -/
noncomputable def frontOf (html coerce : Bool) (_ : Unit) (s : Bytes) : Bytes × Nat × Unit :=
  match s with
  | [] => ([], 0, ())
  | c :: t =>
    if c = c! '"' then (b! "\\\"", 1, ()) else if c = c! '\\' then (b! "\\\\", 1, ())
    else if c = c! '\n' then (b! "\\n", 1, ()) else if c = c! '\r' then (b! "\\r", 1, ()) else if c = c! '\t' then (b! "\\t", 1, ())
    else if c.toNat < 0x20 then (uForm c, 1, ())
    else if html = true ∧ IsHtml c then (uForm c, 1, ())
    else if c.toNat < 0x80 then ([c], 1, ())
    else if BadStart (c :: t) then (if coerce then b! "\\ufffd" else [c], 1, ())
    else
      let cp := (decodeRune (c :: t)).1
      (if coerce = true ∧ cp = 0x2028 then b! "\\u2028" else if coerce = true ∧ cp = 0x2029 then b! "\\u2029" else utf8Encode cp,
        (utf8Encode cp).length, ())

theorem front_high {cp : Nat} (h : IsScalar cp) (h' : 0x80 ≤ cp) (html coerce : Bool) (s : Bytes) :
    frontOf html coerce () (utf8Encode cp ++ s) =
      (if coerce = true ∧ cp = 0x2028 then b! "\\u2028" else if coerce = true ∧ cp = 0x2029 then b! "\\u2029" else utf8Encode cp,
        (utf8Encode cp).length, ()) := by
  have hd := decodeRune_encode cp s h
  have hb : ¬ BadStart (utf8Encode cp ++ s) := fun hb => hb cp h ⟨s, rfl⟩
  have hh := utf8Encode_high h h'
  cases hu : utf8Encode cp with
  | nil => exact absurd hu (utf8Encode_ne_nil cp)
  | cons c t =>
    rw [hu] at hd hb
    have hc : 0x80 ≤ c.toNat := by
      have := hh c (by rw [hu]; simp)
      rw [UInt8.le_iff_toNat_le] at this
      exact this
    have ne : ∀ d : UInt8, d.toNat < 0x80 → c ≠ d := fun d h e => by subst e; omega
    have hn : ¬ IsHtml c := by
      rintro (h | h | h) <;> exact ne _ (by decide) h
    simp only [frontOf, List.cons_append]
    rw [if_neg (ne _ (by decide)), if_neg (ne _ (by decide)), if_neg (ne _ (by decide)), if_neg (ne _ (by decide)), if_neg (ne _ (by decide)),
      if_neg (by omega), if_neg (fun h => hn h.2), if_neg (by omega), if_neg (by simpa using hb)]
    simp only [List.cons_append] at hd
    rw [hd]
    simp only [hu]

theorem bad_high {c : UInt8} {s : Bytes} (h : BadStart (c :: s)) : 0x80 ≤ c.toNat := by
  apply Classical.byContradiction
  intro hc
  refine h c.toNat ?_ ?_
  · unfold IsScalar; omega
  · rw [utf8Encode_ascii (by omega)]
    exact ⟨s, by simp⟩

theorem front_bad {c : UInt8} {s : Bytes} (h : BadStart (c :: s)) (html coerce : Bool) :
    frontOf html coerce () (c :: s) = (if coerce then b! "\\ufffd" else [c], 1, ()) := by
  have hc := bad_high h
  have ne : ∀ d : UInt8, d.toNat < 0x80 → c ≠ d := fun d h e => by subst e; omega
  have hn : ¬ IsHtml c := by
    rintro (h | h | h) <;> exact ne _ (by decide) h
  simp only [frontOf]
  rw [if_neg (ne _ (by decide)), if_neg (ne _ (by decide)), if_neg (ne _ (by decide)), if_neg (ne _ (by decide)), if_neg (ne _ (by decide)),
    if_neg (by omega), if_neg (fun h => hn h.2), if_neg (by omega), if_pos h]

theorem html_ascii {c : UInt8} (h : IsHtml c) : 0x20 ≤ c.toNat ∧ c.toNat < 0x80 ∧ c ≠ c! '"' ∧ c ≠ c! '\\' ∧ c ≠ c! '\n' ∧ c ≠ c! '\r' ∧ c ≠ c! '\t' := by
  rcases h with rfl | rfl | rfl <;> decide

theorem spelling_unique {html coerce : Bool} {s r r' : Bytes} (h : Spelling html coerce s r) (h' : Spelling html coerce s r') : r = r' := by
  refine stepwise_unique (R := fun _ => Spelling html coerce) (frontOf html coerce) ?_ s.length () s r r' (Nat.le_refl _) h h'
  intro _ s r h
  have step := @step_of Unit (fun _ => Spelling html coerce) (frontOf html coerce) () ()
  have seps : IsScalar 0x2028 ∧ IsScalar 0x2029 := by unfold IsScalar; omega
  cases h with
  | nil => exact .inl ⟨rfl, rfl⟩
  | @quote s r h => exact step (s := c! '"' :: s) (e := b! "\\\"") (k := 1) (by simp [frontOf]) (by simp) (by decide) h
  | @backslash s r h => exact step (s := c! '\\' :: s) (e := b! "\\\\") (k := 1) (by simp [frontOf]) (by simp) (by decide) h
  | @newline s r h => exact step (s := c! '\n' :: s) (e := b! "\\n") (k := 1) (by simp [frontOf]) (by simp) (by decide) h
  | @ret s r h => exact step (s := c! '\r' :: s) (e := b! "\\r") (k := 1) (by simp [frontOf]) (by simp) (by decide) h
  | @tab s r h => exact step (s := c! '\t' :: s) (e := b! "\\t") (k := 1) (by simp [frontOf]) (by simp) (by decide) h
  | @control c s r h1 h2 h3 h4 h =>
    have e : frontOf html coerce () (c :: s) = (uForm c, 1, ()) := by
      have n1 : c ≠ c! '"' := by rintro rfl; revert h1; decide
      have n2 : c ≠ c! '\\' := by rintro rfl; revert h1; decide
      simp only [frontOf, if_neg n1, if_neg n2, if_neg h2, if_neg h3, if_neg h4, if_pos h1]
    exact step e (by simp) (by decide) h
  | @html c s r h1 h2 h =>
    obtain ⟨a1, a2, a3, a4, a5, a6, a7⟩ := html_ascii h2
    have e : frontOf html coerce () (c :: s) = (uForm c, 1, ()) := by
      simp only [frontOf, if_neg a3, if_neg a4, if_neg a5, if_neg a6, if_neg a7, if_neg (show ¬ c.toNat < 0x20 by omega)]
      rw [if_pos ⟨h1, h2⟩]
    exact step e (by simp) (by decide) h
  | @ascii c s r h1 h2 h3 h4 h5 h =>
    have ne : ∀ d : UInt8, d.toNat < 0x20 → c ≠ d := fun d h e => by subst e; omega
    have e : frontOf html coerce () (c :: s) = ([c], 1, ()) := by
      simp only [frontOf]
      rw [if_neg h3, if_neg h4, if_neg (ne _ (by decide)), if_neg (ne _ (by decide)), if_neg (ne _ (by decide)), if_neg (show ¬ c.toNat < 0x20 by omega),
        if_neg (fun h => h5 h.1 h.2), if_pos h2]
    exact step e (by simp) (by decide) h
  | @sep8 s r hc h =>
    have e := front_high seps.1 (by omega) html coerce
    refine .inr ⟨?_, ?_, r, ?_, ?_⟩
    · simp [utf8Encode_ne_nil]
    · rw [e]; exact utf8Encode_length_pos _
    · rw [e, if_pos ⟨hc, rfl⟩]
    · rw [e, List.drop_left]; exact h
  | @sep9 s r hc h =>
    have e := front_high seps.2 (by omega) html coerce
    refine .inr ⟨?_, ?_, r, ?_, ?_⟩
    · simp [utf8Encode_ne_nil]
    · rw [e]; exact utf8Encode_length_pos _
    · rw [e]; simp [hc]
    · rw [e, List.drop_left]; exact h
  | @char cp s r hs h80 hn h =>
    have e := front_high hs h80 html coerce
    refine .inr ⟨?_, ?_, r, ?_, ?_⟩
    · simp [utf8Encode_ne_nil]
    · rw [e]; exact utf8Encode_length_pos _
    · rw [e, if_neg (fun h => (hn h.1).1 h.2), if_neg (fun h => (hn h.1).2 h.2)]
    · rw [e, List.drop_left]; exact h
  | replaced hc hb h =>
    have e := front_bad hb html coerce
    exact step (k := 1) (e.trans (by rw [hc]; rfl)) (by simp) (by decide) h
  | kept hc hb h =>
    have e := front_bad hb html coerce
    exact step (k := 1) (e.trans (by rw [hc]; rfl)) (by simp) (by decide) h

theorem spelledAs_unique {o : EncOpts} {s r r' : Bytes} (h : SpelledAs o s r) (h' : SpelledAs o s r') : r = r' := by
  cases h with
  | raw h =>
    cases h' with
    | raw => rfl
    | escaped h' => rw [h] at h'; cases h'
  | escaped h1 h2 =>
    cases h' with
    | raw h => rw [h] at h1; cases h1
    | escaped _ h2' => exact spelling_unique h2 h2'

/-! ## Names and compaction -/

theorem sep_front (s : Bytes) : SepFirst (utf8Encode 0x2028 ++ s) ∧ SepFirst (utf8Encode 0x2029 ++ s) :=
  ⟨.inl ⟨s, rfl⟩, .inr ⟨s, rfl⟩⟩

theorem sep_not_html {s : Bytes} (h : SepFirst s) : ∃ t, s = 0xE2 :: t := by
  obtain ⟨x, t, rfl, -⟩ := (sepFirst_iff s).mp h
  exact ⟨_, rfl⟩

theorem sep_cases {s : Bytes} : (∃ t, s = utf8Encode 0x2028 ++ t) ∨ (∃ t, s = utf8Encode 0x2029 ++ t) ∨ ¬ SepFirst s := by
  by_cases h : SepFirst s
  · rcases h with ⟨t, rfl⟩ | ⟨t, rfl⟩
    · exact .inl ⟨t, rfl⟩
    · exact .inr (.inl ⟨t, rfl⟩)
  · exact .inr (.inr h)

open Classical in
/-- What stands for the front of a JSON text, how long it is, and the place after it. -/
noncomputable def squeezeFront (html : Bool) (p : Place) (s : Bytes) : Bytes × Nat × Place :=
  match s with
  | [] => ([], 0, p)
  | c :: t =>
    if html = true ∧ IsHtml c then (uForm c, 1, p)
    else if utf8Encode 0x2028 <+: c :: t then (b! "\\u2028", 3, p.sep)
    else if utf8Encode 0x2029 <+: c :: t then (b! "\\u2029", 3, p.sep)
    else
      match p with
      | .out => if c = c! ' ' ∨ c = c! '\n' ∨ c = c! '\r' ∨ c = c! '\t' then ([], 1, .out) else if c = c! '"' then ([c], 1, .lit) else ([c], 1, .out)
      | .lit => if c = c! '"' then ([c], 1, .out) else if c = c! '\\' then ([c], 1, .esc) else ([c], 1, .lit)
      | .esc => ([c], 1, .lit)

theorem squeeze_sep8 (html : Bool) (p : Place) (s : Bytes) : squeezeFront html p (utf8Encode 0x2028 ++ s) = (b! "\\u2028", 3, p.sep) := by
  rw [sep_bytes.1]
  simp only [squeezeFront, List.cons_append, List.nil_append]
  rw [if_neg (by simp [IsHtml]), if_pos (by rw [sep_bytes.1]; exact ⟨s, rfl⟩)]

theorem squeeze_sep9 (html : Bool) (p : Place) (s : Bytes) : squeezeFront html p (utf8Encode 0x2029 ++ s) = (b! "\\u2029", 3, p.sep) := by
  rw [sep_bytes.2]
  simp only [squeezeFront, List.cons_append, List.nil_append]
  rw [if_neg (by simp [IsHtml]), if_neg (by rw [sep_bytes.1]; simp), if_pos (by rw [sep_bytes.2]; exact ⟨s, rfl⟩)]

theorem squeeze_plain (html : Bool) (p : Place) {c : UInt8} {s : Bytes} (h1 : html = true → ¬ IsHtml c) (h2 : ¬ SepFirst (c :: s)) :
    squeezeFront html p (c :: s) = match p with
      | .out => if c = c! ' ' ∨ c = c! '\n' ∨ c = c! '\r' ∨ c = c! '\t' then ([], 1, .out) else if c = c! '"' then ([c], 1, .lit) else ([c], 1, .out)
      | .lit => if c = c! '"' then ([c], 1, .out) else if c = c! '\\' then ([c], 1, .esc) else ([c], 1, .lit)
      | .esc => ([c], 1, .lit) := by
  simp only [squeezeFront]
  rw [if_neg (fun h => h1 h.1 h.2), if_neg (fun h => h2 (.inl h)), if_neg (fun h => h2 (.inr h))]

theorem not_sep {c : UInt8} {s : Bytes} (h : c.toNat < 0x80) : ¬ SepFirst (c :: s) := by
  intro h'
  obtain ⟨t, e⟩ := sep_not_html h'
  cases e
  revert h; decide

theorem squeezed_unique {html : Bool} {p : Place} {s r r' : Bytes} (h : Squeezed html p s r) (h' : Squeezed html p s r') : r = r' := by
  refine stepwise_unique (R := Squeezed html) (squeezeFront html) ?_ s.length p s r r' (Nat.le_refl _) h h'
  intro p s r h
  have step : ∀ {p p' : Place} {s e r : Bytes} {k : Nat}, _ := @step_of Place (Squeezed html) (squeezeFront html)
  cases h with
  | nil => exact .inl ⟨rfl, rfl⟩
  | @html _ c s r h1 h2 h =>
    exact step (s := c :: s) (e := uForm c) (k := 1) (by simp only [squeezeFront]; rw [if_pos ⟨h1, h2⟩]) (by simp) (by decide) h
  | sep8 h => exact step (squeeze_sep8 html _ _) (by simp [utf8Encode_ne_nil]) (by decide) h
  | sep9 h => exact step (squeeze_sep9 html _ _) (by simp [utf8Encode_ne_nil]) (by decide) h
  | @space c s r hc h =>
    have h1 : ¬ IsHtml c := by rcases hc with rfl | rfl | rfl | rfl <;> (unfold IsHtml; decide)
    have h2 : c.toNat < 0x80 := by rcases hc with rfl | rfl | rfl | rfl <;> decide
    exact step (s := c :: s) (e := []) (k := 1) ((squeeze_plain html .out (fun _ => h1) (not_sep h2)).trans (if_pos hc)) (by simp) (by decide) h
  | @begin s r h =>
    exact step (s := c! '"' :: s) (e := b! "\"") (k := 1) ((squeeze_plain html .out (fun _ => by unfold IsHtml; decide) (not_sep (by decide))).trans
      (by simp)) (by simp) (by decide) h
  | @out c s r h1 h2 h3 h4 h5 h6 h7 h =>
    exact step (s := c :: s) (e := [c]) (k := 1) ((squeeze_plain html .out h1 h2).trans (by simp [h3, h4, h5, h6, h7])) (by simp) (by decide) h
  | @close s r h =>
    exact step (s := c! '"' :: s) (e := b! "\"") (k := 1) ((squeeze_plain html .lit (fun _ => by unfold IsHtml; decide) (not_sep (by decide))).trans
      (by simp)) (by simp) (by decide) h
  | @backslash s r h =>
    exact step (s := c! '\\' :: s) (e := b! "\\") (k := 1) ((squeeze_plain html .lit (fun _ => by unfold IsHtml; decide) (not_sep (by decide))).trans
      (by simp)) (by simp) (by decide) h
  | @lit c s r h1 h2 h3 h4 h =>
    exact step (s := c :: s) (e := [c]) (k := 1) ((squeeze_plain html .lit h1 h2).trans (by simp [h3, h4])) (by simp) (by decide) h
  | @esc c s r h1 h2 h =>
    exact step (s := c :: s) (e := [c]) (k := 1) (squeeze_plain html .esc h1 h2) (by simp) (by decide) h

theorem copiedAs_unique {o : EncOpts} {s r r' : Bytes} (h : CopiedAs o s r) (h' : CopiedAs o s r') : r = r' := by
  cases h with
  | verbatim h =>
    cases h' with
    | verbatim => rfl
    | compact h' => rw [h] at h'; cases h'
  | compact h1 h2 =>
    cases h' with
    | verbatim h => rw [h] at h1; cases h1
    | compact _ h2' => exact squeezed_unique h2 h2'

/-- A marked name is squeezed, if read as the inside of a literal after a backslash, and so on:
the rules are the same but for the places. -/
theorem marked_unique {s r r' : Bytes} (h : Marked s r) (h' : Marked s r') : r = r' := by
  refine stepwise_unique (R := fun _ : Unit => Marked) (fun _ s => ((squeezeFront true .esc s).1, (squeezeFront true .esc s).2.1, ())) ?_
    s.length () s r r' (Nat.le_refl _) h h'
  intro _ s r h
  have step := @step_of Unit (fun _ => Marked) (fun _ s => ((squeezeFront true .esc s).1, (squeezeFront true .esc s).2.1, ())) () ()
  cases h with
  | nil => exact .inl ⟨rfl, rfl⟩
  | @html c s r h2 h =>
    exact step (s := c :: s) (e := uForm c) (k := 1) (by simp only [squeezeFront]; rw [if_pos ⟨rfl, h2⟩]) (by simp) (by decide) h
  | sep8 h => exact step (e := b! "\\u2028") (k := 3) (by rw [squeeze_sep8]) (by simp [utf8Encode_ne_nil]) (by decide) h
  | sep9 h => exact step (e := b! "\\u2029") (k := 3) (by rw [squeeze_sep9]) (by simp [utf8Encode_ne_nil]) (by decide) h
  | @other c s r h1 h2 h =>
    exact step (s := c :: s) (e := [c]) (k := 1) (by rw [squeeze_plain true .esc (fun _ => h1) h2]) (by simp) (by decide) h

theorem namedAs_unique {o : EncOpts} {s r r' : Bytes} (h : NamedAs o s r) (h' : NamedAs o s r') : r = r' := by
  cases h with
  | raw h =>
    cases h' with
    | raw => rfl
    | marked h' => rw [h] at h'; cases h'
  | marked h1 h2 =>
    cases h' with
    | raw h => rw [h] at h1; cases h1
    | marked _ h2' => exact marked_unique h2 h2'

/-! ## Numbers -/

theorem digits_val_inj : ∀ {a b : Bytes}, (∀ c ∈ a, IsDigit c) → (∀ c ∈ b, IsDigit c) → a.length = b.length → digitsVal a = digitsVal b → a = b := by
  have key : ∀ (n : Nat) {a b : Bytes}, a.length = n → (∀ c ∈ a, IsDigit c) → (∀ c ∈ b, IsDigit c) → a.length = b.length → digitsVal a = digitsVal b → a = b := by
    intro n
    induction n with
    | zero =>
      intro a b hn _ _ hl _
      rw [List.eq_nil_of_length_eq_zero hn, List.eq_nil_of_length_eq_zero (hl.symm.trans hn)]
    | succ n ih =>
      intro a b hn ha hb hl hv
      have na : a ≠ [] := by rintro rfl; cases hn
      have nb : b ≠ [] := by rintro rfl; rw [hn] at hl; cases hl
      rw [← List.dropLast_concat_getLast na, ← List.dropLast_concat_getLast nb] at hv ⊢
      rw [digitsVal_append, digitsVal_append] at hv
      have d1 := ha _ (List.getLast_mem na)
      have d2 := hb _ (List.getLast_mem nb)
      have r : ∀ c : UInt8, IsDigit c → 48 ≤ c.toNat ∧ c.toNat ≤ 57 := by
        intro c ⟨h1, h2⟩
        rw [UInt8.le_iff_toNat_le] at h1 h2
        exact ⟨h1, h2⟩
      have r1 := r _ d1
      have r2 := r _ d2
      have e1 : (a.getLast na).toNat = (b.getLast nb).toNat := by omega
      have e2 : digitsVal a.dropLast = digitsVal b.dropLast := by omega
      rw [ih (by simp [hn]) (fun c h => ha c ((List.dropLast_sublist _).subset h)) (fun c h => hb c ((List.dropLast_sublist _).subset h)) (by simp [hl]) e2,
        UInt8.toNat_inj.mp e1]
  exact fun {_ _} ha hb hl hv => key _ rfl ha hb hl hv

theorem digitsVal_lt : ∀ {ds : Bytes}, (∀ c ∈ ds, IsDigit c) → digitsVal ds < 10 ^ ds.length
  | [], _ => by decide
  | c :: ds, h => by
    have h1 := digitsVal_lt (fun d hd => h d (List.mem_cons_of_mem _ hd))
    have h2 : c.toNat ≤ 57 := UInt8.le_iff_toNat_le.mp (h c List.mem_cons_self).2
    rw [digitsVal_cons, List.length_cons, Nat.pow_succ]
    have : (c.toNat - 48) * 10 ^ ds.length ≤ 9 * 10 ^ ds.length := Nat.mul_le_mul_right _ (by omega)
    omega

theorem intPart_digit {s : Bytes} (h : IntPart s) : ∀ c ∈ s, IsDigit c := by
  rcases h with rfl | ⟨d, ds, rfl, ⟨h1, h2⟩, h3⟩
  · decide
  · intro c hc
    rcases List.mem_cons.mp hc with rfl | hc
    · exact ⟨UInt8.le_trans (by decide) h1, h2⟩
    · exact h3 c hc

/-- Without leading zeros the value decides the digits. -/
theorem intPart_unique {a b : Bytes} (ha : IntPart a) (hb : IntPart b) (h : digitsVal a = digitsVal b) : a = b := by
  have low : ∀ {s : Bytes}, IntPart s → s = b! "0" ∨ 10 ^ (s.length - 1) ≤ digitsVal s := by
    rintro s (rfl | ⟨d, ds, rfl, ⟨h1, h2⟩, h3⟩)
    · exact .inl rfl
    · right
      rw [digitsVal_cons]
      have h1' : 49 ≤ d.toNat := UInt8.le_iff_toNat_le.mp h1
      have : 1 * 10 ^ ds.length ≤ (d.toNat - 48) * 10 ^ ds.length := Nat.mul_le_mul_right _ (by omega)
      simp only [List.length_cons, Nat.add_sub_cancel]
      omega
  have len : ∀ {s : Bytes}, IntPart s → 1 ≤ s.length := fun h => (intPart_short h).2
  have one : ∀ {s : Bytes}, 10 ^ (s.length - 1) ≤ digitsVal s → digitsVal s ≠ 0 := fun h h0 => by
    rw [h0] at h; exact absurd h (by have := Nat.pow_pos (n := ‹Bytes›.length - 1) (show 0 < 10 by decide); omega)
  have up : ∀ {s t : Bytes}, IntPart s → IntPart t → 10 ^ (s.length - 1) ≤ digitsVal s → digitsVal s = digitsVal t → s.length ≤ t.length := by
    intro s t hs ht h1 h2
    have h3 := digitsVal_lt (intPart_digit ht)
    have h4 : 10 ^ (s.length - 1) < 10 ^ t.length := by omega
    have h5 := (Nat.pow_lt_pow_iff_right (show 1 < 10 by decide)).mp h4
    omega
  rcases low ha with rfl | la
  · rcases low hb with rfl | lb
    · rfl
    · exact absurd h.symm (one lb)
  · rcases low hb with rfl | lb
    · exact absurd h (one la)
    · exact digits_val_inj (intPart_digit ha) (intPart_digit hb) (Nat.le_antisymm (up ha hb la h) (up hb ha lb h.symm)) h

theorem intLiteral_unique {i : Int} {a b : Bytes} (ha : IntLiteral a i) (hb : IntLiteral b i) : a = b := by
  cases ha with
  | nonneg s h =>
    generalize hi : ((digitsVal a : Nat) : Int) = i at hb
    cases hb with
    | nonneg t h' => exact intPart_unique h h' (by omega)
    | neg t h' h0 => omega
  | neg s h h0 =>
    generalize hi : -((digitsVal s : Nat) : Int) = i at hb
    cases hb with
    | nonneg t h' => omega
    | neg t h' h0' => rw [intPart_unique h h' (by omega)]

theorem fracText_unique {p r : Nat} {f f' : Bytes} (h : FracText f p r) (h' : FracText f' p r) : f = f' := by
  have pos : ∀ {a : Bytes} {d : UInt8}, d ≠ c! '0' → FracVal (a ++ [d]) p r → r ≠ 0 := by
    intro a d hd ⟨h1, h2, h3⟩ h0
    have h4 : 48 ≤ d.toNat := UInt8.le_iff_toNat_le.mp (h1 d (by simp)).1
    have h5 : d.toNat ≠ 48 := fun e => hd (UInt8.toNat_inj.mp e)
    rw [digitsVal_append] at h3
    have := Nat.mul_pos (show 0 < 10 * digitsVal a + (d.toNat - 48) by omega) (Nat.pow_pos (n := p - (a ++ [d]).length) (show 0 < 10 by decide))
    omega
  have key : ∀ {a a' : Bytes} {d d' : UInt8}, d' ≠ c! '0' → FracVal (a ++ [d]) p r → FracVal (a' ++ [d']) p r → (a' ++ [d']).length ≤ (a ++ [d]).length := by
    intro a a' d d' hd ⟨h1, h2, h3⟩ ⟨h1', h2', h3'⟩
    refine Nat.le_of_not_lt fun hl => ?_
    have e : p - (a ++ [d]).length = ((a' ++ [d']).length - (a ++ [d]).length - 1) + 1 + (p - (a' ++ [d']).length) := by omega
    rw [e, Nat.pow_add, ← h3', ← Nat.mul_assoc] at h3
    have h4 := Nat.eq_of_mul_eq_mul_right (Nat.pow_pos (by decide)) h3
    rw [Nat.pow_succ, ← Nat.mul_assoc, digitsVal_append a'] at h4
    have h5 : 48 ≤ d'.toNat := UInt8.le_iff_toNat_le.mp (h1' d' (by simp)).1
    have h6 : d'.toNat ≤ 57 := UInt8.le_iff_toNat_le.mp (h1' d' (by simp)).2
    have h7 : d'.toNat ≠ 48 := fun e => hd (UInt8.toNat_inj.mp e)
    omega
  rcases h with ⟨rfl, h0⟩ | ⟨a, d, rfl, hd, hv⟩
  · rcases h' with ⟨rfl, -⟩ | ⟨a', d', rfl, hd', hv'⟩
    · rfl
    · exact absurd h0 (pos hd' hv')
  · rcases h' with ⟨rfl, h0⟩ | ⟨a', d', rfl, hd', hv'⟩
    · exact absurd h0 (pos hd hv)
    · have hl := Nat.le_antisymm (key hd hv' hv) (key hd' hv hv')
      obtain ⟨h1, h2, h3⟩ := hv
      obtain ⟨h1', h2', h3'⟩ := hv'
      rw [digits_val_inj h1 h1' hl]
      rw [← h3', hl] at h3
      exact Nat.eq_of_mul_eq_mul_right (Nat.pow_pos (by decide)) h3

theorem sextet_inj {a b : Nat} (ha : a < 64) (hb : b < 64) (h : bitsOf 6 a = bitsOf 6 b) : a = b := by
  apply Nat.eq_of_testBit_eq
  intro i
  by_cases hi : 6 ≤ i
  · have high : ∀ {n}, n < 64 → n.testBit i = false := fun h =>
      Nat.testBit_lt_two_pow (Nat.lt_of_lt_of_le h (Nat.pow_le_pow_right (n := 2) (by decide) hi))
    rw [high ha, high hb]
  · simp only [bitsOf6, List.cons.injEq] at h
    have : i = 0 ∨ i = 1 ∨ i = 2 ∨ i = 3 ∨ i = 4 ∨ i = 5 := by omega
    rcases this with rfl | rfl | rfl | rfl | rfl | rfl <;> simp [h]

theorem sextetBits_inj : ∀ {a b : List Nat}, (∀ i ∈ a, i < 64) → (∀ i ∈ b, i < 64) → sextetBits a = sextetBits b → a = b
  | [], [], _, _, _ => rfl
  | [], c :: b, _, _, h => by have := congrArg List.length h; simp [sextetBits, bitsOf_length] at this; omega
  | c :: a, [], _, _, h => by have := congrArg List.length h; simp [sextetBits, bitsOf_length] at this
  | c :: a, d :: b, ha, hb, h => by
    simp only [sextetBits, List.flatMap_cons] at h
    obtain ⟨h1, h2⟩ := List.append_inj h (by rw [bitsOf_length, bitsOf_length])
    rw [sextet_inj (ha c (by simp)) (hb d (by simp)) h1,
      sextetBits_inj (fun i hi => ha i (List.mem_cons_of_mem _ hi)) (fun i hi => hb i (List.mem_cons_of_mem _ hi)) h2]

theorem sextetBits_length (a : List Nat) : (sextetBits a).length = 6 * a.length := by
  induction a with
  | nil => rfl
  | cons c b ih => simp only [sextetBits, List.flatMap_cons, List.length_append, bitsOf_length, List.length_cons] at ih ⊢; omega

theorem base64_unique {x a b : Bytes} (ha : IsBase64 x a) (hb : IsBase64 x b) : a = b := by
  obtain ⟨v, p, h1, h2, h3, e, h5⟩ := ha
  obtain ⟨v', p', h1', h2', h3', e', h5'⟩ := hb
  have l1 := congrArg List.length h5
  have l2 := congrArg List.length h5'
  simp only [sextetBits_length, List.length_append, byteBits_length, List.length_replicate] at l1 l2
  have hp : p = p' := by omega
  subst hp
  rw [e, e', sextetBits_inj h1 h1' (h5.trans h5'.symm)]

theorem rfc3339_unique {x : GoTime} {nano : Bool} {a b : Bytes} (ha : IsRFC3339 x nano a) (hb : IsRFC3339 x nano b) : a = b := by
  obtain ⟨y, mo, d, h, mi, s, f, h1, -, h3, e⟩ := ha
  obtain ⟨y', mo', d', h', mi', s', f', h1', -, h3', e'⟩ := hb
  obtain ⟨e1, e2, e3, e4, e5, e6⟩ := civilTime_unique h1 h1'
  rw [e, e', e1, e2, e3, e4, e5, e6, fracText_unique h3 h3']

theorem timeWritten_unique {x : GoTime} {nano : Bool} {a b : Bytes} (ha : TimeWritten x nano a) (hb : TimeWritten x nano b) : a = b := by
  rcases ha with ⟨hy, ha⟩ | ⟨hy, ha⟩ <;> rcases hb with ⟨hy', hb⟩ | ⟨hy', hb⟩
  · exact rfc3339_unique ha hb
  · exact absurd hy hy'
  · exact absurd hy' hy
  · obtain ⟨day, y, mo, d, h, mi, s, f, h1, h2, h3, h4, h5, h6, h7, e⟩ := ha
    obtain ⟨day', y', mo', d', h', mi', s', f', h1', h2', h3', h4', h5', h6', h7', e'⟩ := hb
    have e1 : day = day' := by omega
    have e2 : h = h' := by omega
    have e3 : mi = mi' := by omega
    have e4 : s = s' := by omega
    subst e1
    obtain ⟨e5, e6, e7⟩ := dayNumber_inj h5 h5' (h6.trans h6'.symm)
    rw [e, e', e2, e3, e4, e5, e6, e7, fracText_unique h7 h7']

theorem floatText_unique {fmt : FloatFmt} {w : FWidth} {x : Nat} {a b : Bytes} (ha : FloatText fmt w x a) (hb : FloatText fmt w x b) : a = b := by
  cases ha with
  | plain _ h =>
    cases hb with
    | plain => rfl
    | exp _ h' => exact absurd h' h
    | short _ h' => exact absurd h' h
  | exp _ h1 h2 =>
    cases hb with
    | plain _ h => exact absurd h1 h
    | exp => rfl
    | short _ _ h' => exact absurd h' (h2 _ _)
  | short _ h1 h2 =>
    cases hb with
    | plain _ h => exact absurd h1 h
    | exp _ _ h' => exact absurd h2 (h' _ _)
    | short _ _ h2' =>
      obtain ⟨e1, e2⟩ := List.append_inj' (h2.symm.trans h2') rfl
      obtain ⟨e3, -⟩ := List.append_inj' e1 rfl
      rw [e3, e2]

theorem clockText_unique {n : Nat} {a b : Bytes} (ha : ClockText n a) (hb : ClockText n b) : a = b := by
  cases ha <;> cases hb <;> first | rfl | omega | skip
  · rename_i h1 _ _ _ h2; rw [intLiteral_unique h1 h2]
  · rename_i h1 f1 _ _ _ _ h2 f2; rw [intLiteral_unique h1 h2, fracText_unique f1 f2]
  · rename_i h1 f1 _ _ _ _ h2 f2; rw [intLiteral_unique h1 h2, fracText_unique f1 f2]
  · rename_i h1 f1 _ _ _ _ h2 f2; rw [intLiteral_unique h1 h2, fracText_unique f1 f2]
  · rename_i m1 h1 f1 _ _ _ _ _ m2 h2 f2; rw [intLiteral_unique m1 m2, intLiteral_unique h1 h2, fracText_unique f1 f2]
  · rename_i k1 m1 h1 f1 _ _ _ _ _ k2 m2 h2 f2; rw [intLiteral_unique k1 k2, intLiteral_unique m1 m2, intLiteral_unique h1 h2, fracText_unique f1 f2]

theorem durationText_unique {W : World} {o : EncOpts} {d : Int64} {a b : Bytes} (ha : DurationText W o d a) (hb : DurationText W o d b) : a = b := by
  cases ha with
  | str h1 h2 h3 =>
    cases hb with
    | str _ _ h => rw [clockText_unique h3 h]
    | neg _ h => omega
    | ns h | us h | ms h | sec h | min h => rw [h] at h1; cases h1
  | neg h1 h2 h3 =>
    cases hb with
    | neg _ _ h => rw [clockText_unique h3 h]
    | str _ h => omega
    | ns h | us h | ms h | sec h | min h => rw [h] at h1; cases h1
  | ns h1 h2 =>
    cases hb with
    | ns _ h => exact intLiteral_unique h2 h
    | str h | neg h | us h | ms h | sec h | min h => rw [h] at h1; cases h1
  | us h1 h2 =>
    cases hb with
    | us _ h => exact intLiteral_unique h2 h
    | str h | neg h | ns h | ms h | sec h | min h => rw [h] at h1; cases h1
  | ms h1 h2 =>
    cases hb with
    | ms _ h => exact intLiteral_unique h2 h
    | str h | neg h | ns h | us h | sec h | min h => rw [h] at h1; cases h1
  | sec h1 h2 =>
    cases hb with
    | sec _ h => exact floatText_unique h2 h
    | str h | neg h | ns h | us h | ms h | min h => rw [h] at h1; cases h1
  | min h1 h2 =>
    cases hb with
    | min _ h => exact floatText_unique h2 h
    | str h | neg h | ns h | us h | ms h | sec h => rw [h] at h1; cases h1

theorem timeText_unique {W : World} {o : EncOpts} {x : GoTime} {a b : Bytes} (ha : TimeText W o x a) (hb : TimeText W o x b) : a = b := by
  cases ha with
  | unix h1 h2 =>
    cases hb with
    | unix _ h => exact intLiteral_unique h2 h
    | rfc3339 h | nano h | layout h => rw [h] at h1; cases h1
  | rfc3339 h1 h2 h3 =>
    cases hb with
    | unix h => rw [h] at h1; cases h1
    | rfc3339 _ _ h => rw [timeWritten_unique h3 h]
    | nano _ h | layout _ h => rw [h] at h2; cases h2
  | nano h1 h2 h3 =>
    cases hb with
    | unix h => rw [h] at h1; cases h1
    | nano _ _ h => rw [timeWritten_unique h3 h]
    | rfc3339 _ h | layout _ h => rw [h] at h2; cases h2
  | layout h1 h2 =>
    cases hb with
    | unix h => rw [h] at h1; cases h1
    | layout _ h => rw [h] at h2; cases h2; rfl
    | rfc3339 _ h | nano _ h => rw [h] at h2; cases h2

theorem methText_unique {M : MethV} {o : EncOpts} {rt : TId} {x : Val} {m : MethKind} {a b : Bytes} (hP : PathFree M)
    (ha : MethText M o rt x m a) (hb : MethText M o rt x m b) : a = b := by
  cases ha with
  | ctx h => cases hb with | ctx h' => rw [hP _ _ _ _ _ _ _, h'] at h; cases h; rfl
  | app h => cases hb with | app h' => rw [hP _ _ _ _ _ _ _, h'] at h; cases h; rfl
  | json h _ c => cases hb with | json h' _ c' => rw [hP _ _ _ _ _ _ _, h'] at h; cases h; exact copiedAs_unique c c'
  | text h => cases hb with | text h' => rw [hP _ _ _ _ _ _ _, h'] at h; cases h; rfl

end Jettison.Proofs
