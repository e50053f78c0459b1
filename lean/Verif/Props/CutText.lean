import Verif.Props.CutExact
import Verif.Proofs.Parser

/-!
# What is returned beside an error is no JSON text (C66)
-/

namespace Jettison.Props
open Jettison Jettison.Spec Jettison.Model Jettison.Proofs

variable {W : World} {M : MethV} {o : EncOpts} {t : TId} {ca q : Bool} {v : Val} {e : Err} {c : Bytes}

/-- The last byte calls for more. -/
def OpenEnd (c : Bytes) : Prop := ∃ s x, c = s ++ [x] ∧ x ∈ b! "[{,:\""

theorem openEnd_tail {a : Bytes} (h : OpenEnd a) (hc : c = [] ∨ OpenEnd c) : OpenEnd (a ++ c) := by
  rcases hc with rfl | ⟨s, x, rfl, hx⟩
  · rwa [List.append_nil]
  · exact ⟨a ++ s, x, by simp, hx⟩

theorem commas_open (hc : c = [] ∨ OpenEnd c) : ∀ l : List Bytes, commas (l ++ [c]) = [] ∨ OpenEnd (commas (l ++ [c]))
  | [] => hc
  | x :: l => by
    rw [List.cons_append, commas_snoc]
    exact .inr (openEnd_tail ⟨x, c! ',', rfl, by decide⟩ (commas_open hc l))

theorem bracket_open {b : Bytes} {x : UInt8} (hx : x = c! '[' ∨ x = c! '{') (h : b = [] ∨ OpenEnd b) :
    (∃ s, x :: b = c! '[' :: s ∨ x :: b = c! '{' :: s) ∧ OpenEnd (x :: b) :=
  ⟨⟨b, by rcases hx with rfl | rfl <;> simp⟩, openEnd_tail (a := [x]) ⟨[], x, rfl, by rcases hx with rfl | rfl <;> decide⟩ h⟩

theorem cut_weak (h : c = [] ∨ c = b! "\"" ∨ ((∃ s, c = c! '[' :: s ∨ c = c! '{' :: s) ∧ OpenEnd c)) : c = [] ∨ OpenEnd c := by
  rcases h with h | rfl | ⟨-, h⟩
  · exact .inl h
  · exact .inr ⟨[], c! '"', rfl, by decide⟩
  · exact .inr h

mutual
/-- The shape of what is written: nothing, a quote, or a bracket and what follows, with an end that calls for more. -/
theorem cut_open : ∀ {t : TId} {ca q : Bool} {v : Val} {e : Err} {c : Bytes}, Cut W M o t ca q v e c →
    c = [] ∨ c = b! "\"" ∨ ((∃ s, c = c! '[' :: s ∨ c = c! '{' :: s) ∧ OpenEnd c)
  | _, _, _, _, _, _, .fault _ _ _ => .inl rfl
  | _, _, _, _, _, _, .quoted _ _ _ => .inr (.inl rfl)
  | _, _, _, _, _, _, .ptr _ _ h => cut_open h
  | _, _, _, _, _, _, .iface _ _ h => cut_open h
  | _, _, _, _, _, _, .slice _ _ _ _ _ _ h => .inr (.inr (bracket_open (.inl rfl) (commas_open (cut_weak (cut_open h)) _)))
  | _, _, _, _, _, _, .array _ _ _ _ _ _ h => .inr (.inr (bracket_open (.inl rfl) (commas_open (cut_weak (cut_open h)) _)))
  | _, _, _, _, _, _, .field (lead := lead) (key := key) (m := m) (kept := kept) (b := b) (c := c) _ _ _ _ _ _ _ _ _ _ _ _ _ _ h => by
    have h1 : OpenEnd (b! "\"" ++ key m ++ b! "\":" ++ c) := openEnd_tail ⟨b! "\"" ++ key m ++ b! "\"", c! ':', by simp, by decide⟩ (cut_weak (cut_open h))
    have h2 : OpenEnd (commas ((kept.map fun m' => b! "\"" ++ key m' ++ b! "\":" ++ b m') ++ [b! "\"" ++ key m ++ b! "\":" ++ c])) := by
      rcases commas_open (.inr h1) (kept.map fun m' => b! "\"" ++ key m' ++ b! "\":" ++ b m') with h2 | h2
      · exfalso
        cases hk : (kept.map fun m' => b! "\"" ++ key m' ++ b! "\":" ++ b m') with
        | nil => rw [hk] at h2; simp [commas] at h2
        | cons x l => rw [hk, List.cons_append, commas_snoc] at h2; simp at h2
      · exact h2
    obtain ⟨s, x, h3, h4⟩ := h2
    refine .inr (.inr (bracket_open (x := c! '{') (.inr rfl) (b := lead ++ _) (.inr ⟨lead ++ s, x, ?_, h4⟩)))
    rw [h3, List.append_assoc]
  | _, _, _, _, _, _, .sorted _ _ _ _ _ _ => .inr (.inr (bracket_open (.inr rfl) (.inl rfl)))
  | _, _, _, _, _, _, .unsorted _ _ _ _ _ _ _ _ h => .inr (.inr (bracket_open (.inr rfl) (commas_open (entryCut_open h) _)))
  | _, _, _, _, _, _, .ssorted _ _ _ _ => .inr (.inr (bracket_open (.inr rfl) (.inl rfl)))
  | _, _, _, _, _, _, .sunsorted _ _ _ _ _ _ _ h => .inr (.inr (bracket_open (.inr rfl) (commas_open (syncEntryCut_open h) _)))

theorem entryCut_open : ∀ {k u : TId} {kv : Val × Val} {e : Err} {c : Bytes}, EntryCut W M o k u kv e c → c = [] ∨ OpenEnd c
  | _, _, _, _, _, .text _ _ _ h => cut_weak (cut_open h)
  | _, _, _, _, _, .quoted _ _ h => .inr (openEnd_tail ⟨[], c! '"', rfl, by decide⟩ (cut_weak (cut_open h)))
  | _, _, _, _, _, .elem (kb := kb) _ _ h => .inr (openEnd_tail ⟨kb, c! ':', rfl, by decide⟩ (cut_weak (cut_open h)))

theorem syncEntryCut_open : ∀ {kv : Val × Val} {e : Err} {c : Bytes}, SyncEntryCut W M o kv e c → c = [] ∨ OpenEnd c
  | _, _, _, .nilKey _ => .inl rfl
  | _, _, _, .badKey _ _ => .inl rfl
  | _, _, _, .text _ _ _ h => cut_weak (cut_open h)
  | _, _, _, .quoted _ _ _ h => .inr (openEnd_tail ⟨[], c! '"', rfl, by decide⟩ (cut_weak (cut_open h)))
  | _, _, _, .elem (kb := kb) _ _ _ h => .inr (openEnd_tail ⟨kb, c! ':', rfl, by decide⟩ (cut_weak (cut_open h)))
end

theorem open_no_ws : ∀ c : UInt8, c ∈ b! "[{,:\"" → ¬ IsWs c := by decide +kernel

/-- A value in the grammar: not empty, no lone quote, and closed if it begins with a bracket. -/
theorem gr_closed {j : Json} {s : Bytes} (h : Gr Ws (.val j) s) :
    s ≠ [] ∧ ¬ IsWs (s.headD 0) ∧ s ≠ b! "\"" ∧ (s.head? = some (c! '[') ∨ s.head? = some (c! '{') → ∃ r x, s = r ++ [x] ∧ (x = c! ']' ∨ x = c! '}')) := by
  cases h with
  | null | true | false => refine ⟨by decide, by decide, by decide, fun h => absurd h (by decide)⟩
  | num _ h =>
    obtain ⟨c, t, rfl, hc⟩ := number_cons h
    obtain ⟨h1, h2, h3, h4, h5, h6, h7, h8, h9⟩ := numStart c hc
    refine ⟨by simp, ?_, ?_, ?_⟩
    · rw [List.headD_cons, ← isWsB_iff, h9]
      decide
    · intro h
      cases h
      rcases hc with hc | hc
      · revert hc; decide
      · revert hc; decide
    · simp only [List.head?_cons, Option.some.injEq]
      rintro (rfl | rfl)
      · exact absurd hc (by decide)
      · exact absurd hc (by decide)
  | str body =>
    refine ⟨by simp [strToken], by simp [strToken]; decide, ?_, ?_⟩
    · intro h
      have := congrArg List.length h
      simp [strToken] at this
    · simp [strToken]
  | arr0 w => exact ⟨by simp, by simp; decide, by simp, fun _ => ⟨c! '[' :: w, _, rfl, .inl rfl⟩⟩
  | arr js s => exact ⟨by simp, by simp; decide, by simp, fun _ => ⟨c! '[' :: s, _, rfl, .inl rfl⟩⟩
  | obj0 w => exact ⟨by simp, by simp; decide, by simp, fun _ => ⟨c! '{' :: w, _, rfl, .inr rfl⟩⟩
  | obj ms s => exact ⟨by simp, by simp; decide, by simp, fun _ => ⟨c! '{' :: s, _, rfl, .inr rfl⟩⟩

/-- C66: what is written of a value that fails is no JSON text. -/
theorem C66_no_text (h : Cut W M o t ca q v e c) (j : Json) : ¬ JsonText j c := by
  rintro ⟨w1, s, w2, h1, h2, h3, rfl⟩
  obtain ⟨a1, a2, a3, a4⟩ := gr_closed h3
  obtain ⟨y, s', rfl⟩ : ∃ y s', s = y :: s' := by cases s with
    | nil => exact absurd rfl a1
    | cons y s' => exact ⟨y, s', rfl⟩
  rcases cut_open h with hc | hc | ⟨⟨s2, hb⟩, s3, x, hl, hx⟩
  · simp at hc
  · cases w1 with
    | cons z w1 =>
      simp only [List.cons_append, List.cons.injEq] at hc
      have := h1 z (by simp)
      rw [hc.1] at this
      exact absurd this (by decide)
    | nil =>
      simp only [List.nil_append, List.cons_append, List.cons.injEq, List.append_eq_nil_iff] at hc
      obtain ⟨rfl, rfl, rfl⟩ := hc
      exact a3 rfl
  · have hhead : (w1 ++ (y :: s' ++ w2)).head? = some (c! '[') ∨ (w1 ++ (y :: s' ++ w2)).head? = some (c! '{') := by
      rcases hb with hb | hb <;> rw [hb] <;> simp
    cases w1 with
    | cons z w1 =>
      have := h1 z (by simp)
      simp only [List.cons_append, List.head?_cons, Option.some.injEq] at hhead
      rcases hhead with rfl | rfl
      · exact absurd this (by decide)
      · exact absurd this (by decide)
    | nil =>
      obtain ⟨r, z, hr, hz⟩ := a4 (by simpa using hhead)
      rcases List.eq_nil_or_concat w2 with rfl | ⟨w, k, rfl⟩
      · rw [hr] at hl
        simp only [List.nil_append, List.append_nil] at hl
        have := (List.append_inj' hl rfl).2
        simp only [List.cons.injEq, and_true] at this
        subst this
        rcases hz with rfl | rfl
        · exact absurd hx (by decide)
        · exact absurd hx (by decide)
      · rw [List.nil_append, List.concat_eq_append, ← List.append_assoc] at hl
        have := (List.append_inj' hl rfl).2
        simp only [List.cons.injEq, and_true] at this
        subst this
        have hk := h2 k (by simp)
        exact open_no_ws k hx hk

/-- C66: no value is written in full beside an error: what `AppendOpts` adds then is no JSON text. -/
theorem C66_append {H : Heap} (D : WriteReady W H M) (hstd : StdText W.E) {w : Addr} (hx : ReprE W.E H.mem (some (t, w)) (.iface t v)) (hf : TimesFine W t v)
    {opts : List (Option Opt)} (ho : prepare opts = .ok o) {n : Nat} {dst out : Bytes} {e : ApiErr}
    (h : appendOpts W H n dst (some (t, w)) opts = .ret (some out) (some e)) : ∃ c, out = dst ++ c ∧ ∀ j, ¬ JsonText j c := by
  cases e with
  | encoding e =>
    obtain ⟨c, h1, h2⟩ := C66_cut D hstd hx hf ho h
    exact ⟨c, Option.some.inj h1, C66_no_text h2⟩
  | invalidOption e =>
    simp only [appendOpts, appendTop, ho] at h
    generalize appendJSON W (run W H o n) [] (some (t, w)) dst = r at h
    cases r <;> simp [appendRet] at h

end Jettison.Props
