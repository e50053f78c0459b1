import Verif.Spec.Std
import Verif.Proofs.WritesUnique
import Verif.Proofs.Doc

/-!
# Lemmas for C57: strings that need no escapes, the choice of methods and of fields
-/

namespace Jettison.Proofs
open Jettison Jettison.Spec Jettison.Model

/-! ## Strings that need no escapes -/

/-- Printable ASCII that is never escaped. -/
def ClearByte (c : UInt8) : Prop := 0x20 ≤ c.toNat ∧ c.toNat < 0x80 ∧ c ≠ c! '"' ∧ c ≠ c! '\\' ∧ c ≠ c! '<' ∧ c ≠ c! '>' ∧ c ≠ c! '&'

instance (c : UInt8) : Decidable (ClearByte c) := inferInstanceAs (Decidable (_ ∧ _))

theorem spelling_clear {s : Bytes} (h : ∀ c ∈ s, ClearByte c) : Spelling true true s s := by
  induction s with
  | nil => exact .nil
  | cons c s ih =>
    obtain ⟨h1, h2, h3, h4, h5, h6, h7⟩ := h c List.mem_cons_self
    exact .ascii h1 h2 h3 h4 (fun _ h => by rcases h with h | h | h <;> contradiction) (ih fun d hd => h d (List.mem_cons_of_mem _ hd))

theorem isDigit_clear {c : UInt8} (h : IsDigit c) : ClearByte c := by
  have key : ∀ c : UInt8, IsDigit c → ClearByte c := by
    refine forall_byte ?_
    decide +kernel
  exact key c h

theorem clear_append {a b : Bytes} (ha : ∀ c ∈ a, ClearByte c) (hb : ∀ c ∈ b, ClearByte c) : ∀ c ∈ a ++ b, ClearByte c := by
  intro c hc
  rcases List.mem_append.mp hc with h | h
  · exact ha c h
  · exact hb c h

theorem digitByte_clear (n : Nat) : ClearByte (UInt8.ofNat (48 + n % 10)) := by
  have key : ∀ k, k < 10 → ClearByte (UInt8.ofNat (48 + k)) := by decide
  exact key _ (Nat.mod_lt _ (by omega))

theorem padDigits_clear : ∀ (w n : Nat), ∀ c ∈ padDigits w n, ClearByte c
  | 0, _, c, h => by simp [padDigits] at h
  | w + 1, n, c, h => by
    simp only [padDigits, List.mem_append, List.mem_singleton] at h
    rcases h with h | rfl
    · exact padDigits_clear w _ c h
    · exact digitByte_clear n

theorem rfc3339_bytes {x : GoTime} {nano : Bool} {text : Bytes} (h : IsRFC3339 x nano text) : ∀ c ∈ text, ClearByte c := by
  obtain ⟨y, mo, d, hh, mi, s, f, -, -, hf, rfl⟩ := h
  have hp := padDigits_clear
  refine clear_append (clear_append ?_ ?_) ?_
  · unfold dateTimeText
    refine clear_append (clear_append (clear_append (clear_append (clear_append (clear_append (clear_append (clear_append (clear_append (clear_append
      (hp _ _) ?_) (hp _ _)) ?_) (hp _ _)) ?_) (hp _ _)) ?_) (hp _ _)) ?_) (hp _ _) <;> decide
  · rcases hf with ⟨rfl, -⟩ | ⟨a, e, rfl, -, hd, -, -⟩
    · simp
    · intro c hc
      rcases List.mem_cons.mp hc with rfl | hc
      · decide
      · exact isDigit_clear (hd c hc)
  · unfold zoneText
    split
    · decide
    · refine clear_append (clear_append (clear_append ?_ (hp _ _)) ?_) (hp _ _)
      · split <;> decide
      · decide

theorem rfc3339_clear {x : GoTime} {nano : Bool} {text : Bytes} (h : IsRFC3339 x nano text) : Spelling true true text text :=
  spelling_clear (rfc3339_bytes h)

theorem intPart_clear {s : Bytes} (h : IntPart s) : ∀ c ∈ s, ClearByte c := by
  intro c hc
  exact isDigit_clear (intPart_digit h c hc)

theorem intLiteral_clear {b : Bytes} {i : Int} (h : IntLiteral b i) : Spelling true true b b := by
  apply spelling_clear
  cases h with
  | nonneg _ h => exact intPart_clear h
  | neg s h => exact clear_append (a := b! "-") (by decide) (intPart_clear h)

theorem spelling_length {html coerce : Bool} {s r : Bytes} (h : Spelling html coerce s r) : s.length ≤ r.length := by
  have e8 : (utf8Encode 0x2028).length = 3 := by decide
  have e9 : (utf8Encode 0x2029).length = 3 := by decide
  induction h with
  | nil => exact Nat.le_refl _
  | sep8 | sep9 => simp [e8, e9, List.length_append] at *; omega
  | control | html => simp [uForm] at *; omega
  | _ => simp at *; omega

/-- A string that needs no escapes, between quotes, needs escapes of these only. -/
theorem spelling_requote {s : Bytes} (h : Spelling true true s s) :
    Spelling false true (b! "\"" ++ s ++ b! "\"") (b! "\\\"" ++ s ++ b! "\\\"") := by
  have key : ∀ {s r : Bytes}, Spelling true true s r → r = s → Spelling false true (s ++ b! "\"") (s ++ b! "\\\"") := by
    intro s r h
    have e8 : utf8Encode 0x2028 = [0xE2, 0x80, 0xA8] := by decide
    have e9 : utf8Encode 0x2029 = [0xE2, 0x80, 0xA9] := by decide
    induction h with
    | nil => intro _; exact .quote .nil
    | quote | newline | ret | tab => intro h; exact absurd (congrArg List.head? h) (by simp)
    | backslash hs =>
      intro h
      have := congrArg List.length h
      have := spelling_length hs
      simp at *
      omega
    | @control c s r h1 =>
      intro h
      have := congrArg List.head? h
      simp [uForm] at this
      subst this
      exact absurd h1 (by decide)
    | @html c s r _ h1 =>
      intro h
      have := congrArg List.head? h
      simp [uForm] at this
      subst this
      exact absurd h1 (by rintro (h | h | h) <;> exact absurd h (by decide))
    | ascii h1 h2 h3 h4 _ _ ih => intro h; exact .ascii h1 h2 h3 h4 (by simp) (ih (List.cons.inj h).2)
    | sep8 => intro h; rw [e8] at h; exact absurd (congrArg List.head? h) (by simp)
    | sep9 => intro h; rw [e9] at h; exact absurd (congrArg List.head? h) (by simp)
    | char h1 h2 h3 _ ih =>
      intro h
      rw [List.append_assoc, List.append_assoc]
      exact .char h1 h2 h3 (ih (List.append_cancel_left h))
    | @replaced c s r _ h1 =>
      intro h
      have := congrArg List.head? h
      simp at this
      subst this
      exact absurd (bad_high h1) (by decide)
    | kept h => cases h
  have := Spelling.quote (html := false) (key h rfl)
  simpa using this

/-! ## Methods -/

section
variable {E : Env} {t : TId} {ca : Bool}

/-- No methods of jettison's own interfaces. -/
def NoAppend (E : Env) (t : TId) : Prop := ∀ m, m = .append ∨ m = .appendCtx → ¬ MethSet.Has (E t).meths m ∧ ¬ MethSet.Has (E t).pmeths m

theorem noAppend_available (h : NoAppend E t) : ¬ Available E t ca .append ∧ ¬ Available E t ca .appendCtx := by
  constructor
  · rintro (h' | ⟨-, -, h'⟩)
    · exact (h _ (.inl rfl)).1 h'
    · exact (h _ (.inl rfl)).2 h'
  · rintro (h' | ⟨-, -, h'⟩)
    · exact (h _ (.inr rfl)).1 h'
    · exact (h _ (.inr rfl)).2 h'

theorem picks_std (h : NoAppend E t) {m : MethKind} : Picks E t ca m ↔ StdPicks E t ca m := by
  obtain ⟨h1, h2⟩ := noAppend_available (ca := ca) h
  constructor
  · rintro ⟨ha, hb⟩
    cases m with
    | append => exact absurd ha h1
    | appendCtx => exact absurd ha h2
    | json => exact .json ha
    | text => exact .text (hb .json (by decide)) ha
  · intro h
    cases h with
    | json h => exact ⟨h, fun m' hm => by cases m' <;> simp [precedence] at hm <;> assumption⟩
    | text h0 h => exact ⟨h, fun m' hm => by cases m' <;> simp [precedence] at hm <;> assumption⟩

theorem byKind_available (h : ByKind E t ca) (m : MethKind) : ¬ Available E t ca m := by
  have h1 := h.meths
  have h2 := h.pmeths
  simp only [MethSet.any, not_or] at h1
  obtain ⟨a1, a2, a3, a4⟩ := h1
  rintro (h' | ⟨hca, hn, h'⟩)
  · cases m <;> simp [MethSet.Has, *] at h'
  · have hp : isPtrK (E t).kind = false := by
      cases hk : (E t).kind with
      | ptr e => exact absurd ⟨e, hk⟩ hn
      | _ => rfl
    have h2 := h2 hca hp
    simp only [MethSet.any, not_or] at h2
    obtain ⟨b1, b2, b3, b4⟩ := h2
    cases m <;> simp [MethSet.Has, *] at h'

theorem kind_std (h : NoAppend E t) : ByKind E t ca ↔ StdKind E t ca := by
  constructor
  · intro hb
    exact ⟨hb.special, byKind_available hb _, byKind_available hb _⟩
  · intro hb
    rcases picks_or_byKind (ca := ca) hb.special with hb' | ⟨m, hm⟩
    · exact hb'
    · exfalso
      cases (picks_std h).mp hm with
      | json h => exact hb.json h
      | text _ h => exact hb.text h

end

/-! ## Fields -/

theorem tagGives_std {letter digit : Nat → Bool} {tag n : Bytes} (h : ∀ nm opts, TagReading tag nm opts → c! ';' ∉ nm) :
    TagGives (stdLetter letter) digit tag n ↔ TagGives letter digit tag n := by
  constructor
  · rintro ⟨opts, hr, hne, cps, hc, rfl⟩
    refine ⟨opts, hr, hne, cps, fun c hm => ⟨(hc c hm).1, ?_⟩, rfl⟩
    rcases (hc c hm).2 with h1 | h1 | h1
    · exact .inl h1
    · simp only [stdLetter, Bool.or_eq_true, beq_iff_eq] at h1
      rcases h1 with h1 | rfl
      · exact .inr (.inl h1)
      · exact absurd (List.mem_flatMap.mpr ⟨_, hm, by decide⟩) (h _ _ hr)
    · exact .inr (.inr h1)
  · rintro ⟨opts, hr, hne, cps, hc, rfl⟩
    refine ⟨opts, hr, hne, cps, fun c hm => ⟨(hc c hm).1, ?_⟩, rfl⟩
    rcases (hc c hm).2 with h1 | h1 | h1
    · exact .inl h1
    · exact .inr (.inl (by simp [stdLetter, h1]))
    · exact .inr (.inr h1)

section
variable {L L' digit : Nat → Bool} {E : Env}

/-- The two sets of letters give the same names to all fields. -/
def SameNames (L L' digit : Nat → Bool) (E : Env) : Prop :=
  ∀ u fs sf n, HasFields E u fs → sf ∈ fs → (TagGives L digit sf.tag n ↔ TagGives L' digit sf.tag n)

variable (hT : SameNames L L' digit E)

include hT

theorem promotes_same {u : TId} {fs : List FieldDef} {sf : FieldDef} (hf : HasFields E u fs) (hm : sf ∈ fs) {v : TId} {ptr : Bool} :
    Promotes L digit E sf v ptr ↔ Promotes L' digit E sf v ptr := by
  unfold Promotes
  simp only [hT u fs sf _ hf hm]

theorem member_same {u : TId} {fs : List FieldDef} {sf : FieldDef} (hf : HasFields E u fs) (hm : sf ∈ fs) {n : Bytes} {tg : Bool} :
    Member L digit E sf n tg ↔ Member L' digit E sf n tg := by
  unfold Member
  simp only [hT u fs sf _ hf hm, promotes_same hT hf hm]

theorem reaches_same {t : TId} {p : List Nat} {u : TId} {q : List (Nat × Bool)} : Reaches L digit E t p u q ↔ Reaches L' digit E t p u q := by
  constructor
  · intro h
    induction h with
    | here => exact .here
    | step _ h1 h2 h3 ih => exact .step ih h1 h2 ((promotes_same hT h1 (List.mem_of_getElem? h2)).mp h3)
  · intro h
    induction h with
    | here => exact .here
    | step _ h1 h2 h3 ih => exact .step ih h1 h2 ((promotes_same hT h1 (List.mem_of_getElem? h2)).mpr h3)

theorem promoted_same {t : TId} {path : List Nat} {u : TId} {i : Nat} {sf : FieldDef} {n : Bytes} {tg : Bool} {r : List (Nat × Bool)} :
    Promoted L digit E t path u i sf n tg r ↔ Promoted L' digit E t path u i sf n tg r := by
  constructor
  · rintro ⟨⟨p, q, h1, h2⟩, ⟨fs, h3, h4⟩, h5⟩
    exact ⟨⟨p, q, (reaches_same hT).mp h1, h2⟩, ⟨fs, h3, h4⟩, (member_same hT h3 (List.mem_of_getElem? h4)).mp h5⟩
  · rintro ⟨⟨p, q, h1, h2⟩, ⟨fs, h3, h4⟩, h5⟩
    exact ⟨⟨p, q, (reaches_same hT).mpr h1, h2⟩, ⟨fs, h3, h4⟩, (member_same hT h3 (List.mem_of_getElem? h4)).mpr h5⟩

theorem canonical_same {t : TId} {p : List Nat} {u : TId} : Canonical L digit E t p u ↔ Canonical L' digit E t p u := by
  unfold Canonical
  simp only [reaches_same hT]

theorem canonicalPush_same {t : TId} {p : List Nat} {u : TId} : CanonicalPush L digit E t p u ↔ CanonicalPush L' digit E t p u := by
  constructor
  · rintro ⟨p, w, fs, i, sf, ptr, h1, h2, h3, h4, h5⟩
    exact ⟨p, w, fs, i, sf, ptr, h1, (canonical_same hT).mp h2, h3, h4, (promotes_same hT h3 (List.mem_of_getElem? h4)).mp h5⟩
  · rintro ⟨p, w, fs, i, sf, ptr, h1, h2, h3, h4, h5⟩
    exact ⟨p, w, fs, i, sf, ptr, h1, (canonical_same hT).mpr h2, h3, h4, (promotes_same hT h3 (List.mem_of_getElem? h4)).mpr h5⟩

theorem chosenField_same {t : TId} {m : MField} : ChosenField L digit E t m ↔ ChosenField L' digit E t m := by
  unfold ChosenField PushedTwice
  simp only [promoted_same hT, canonical_same hT, canonicalPush_same hT]

theorem membersOf_same {t : TId} {l : List MField} : MembersOf L digit E t l ↔ MembersOf L' digit E t l := by
  unfold MembersOf
  simp only [chosenField_same hT]

end

theorem sameNames_std {letter digit : Nat → Bool} {E : Env} (h : NoSemicolons E) : SameNames (stdLetter letter) letter digit E :=
  fun u fs sf _ hf hm => tagGives_std fun nm opts => h u fs sf nm opts hf hm

end Jettison.Proofs
