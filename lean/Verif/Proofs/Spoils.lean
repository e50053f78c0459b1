import Verif.Spec.Spoils
import Verif.Proofs.Doc
import Verif.Proofs.LiveText
import Verif.Proofs.WritesUnique
import Verif.Props.Structs
import Verif.Props.Compact
import Verif.Props.WritesExact

/-! # Texts of single values are well-formed -/

namespace Jettison.Proofs
open Jettison Jettison.Spec Jettison.Model Jettison.Props

variable {ws : Bytes → Prop} {W : World} {M : MethV} {o : EncOpts}

theorem formed_val {j : Json} {b : Bytes} (hw : ws []) (h : Gr ws (.val j) b) : Formed ws b := ⟨[], b, [], j, hw, hw, h, by simp⟩

theorem formed_compact {j : Json} {b : Bytes} (hw : ws []) (h : CompactText j b) : Formed ws b :=
  formed_val hw (gr_mono (fun w e => by rw [show w = [] from e]; exact hw) h)

theorem formed_str {kb c : Bytes} (hw : ws []) (h : unescape kb = some c) : Formed ws (b! "\"" ++ kb ++ b! "\"") := by
  have := formed_val hw (Gr.str (W := ws) kb c h)
  simpa [strToken] using this

theorem strFormed_str {kb c : Bytes} (hw : ws []) (h : unescape kb = some c) : StrFormed ws (b! "\"" ++ kb ++ b! "\"") :=
  ⟨[], kb, [], c, hw, hw, h, by simp [strToken]⟩

theorem gr_formed_elems : ∀ {ts : List Bytes}, (∀ t ∈ ts, Formed ws t) → ts ≠ [] → ∃ js, Gr ws (.elems js) (commas ts)
  | [], _, hn => absurd rfl hn
  | [t], h, _ => by
    obtain ⟨w1, s, w2, j, h1, h2, h3, rfl⟩ := h t (by simp)
    exact ⟨[j], by simpa [commas] using Gr.elem (W := ws) w1 s w2 j h1 h3 h2⟩
  | t :: t' :: ts, h, _ => by
    obtain ⟨w1, s, w2, j, h1, h2, h3, rfl⟩ := h t (by simp)
    obtain ⟨js, hj⟩ := gr_formed_elems (ts := t' :: ts) (fun x hx => h x (List.mem_cons_of_mem _ hx)) (by simp)
    exact ⟨j :: js, by simpa [commas] using Gr.elemCons (W := ws) w1 s w2 _ j _ h1 h3 h2 hj⟩

theorem formed_arr {ts : List Bytes} (hw : ws []) (h : ∀ t ∈ ts, Formed ws t) : Formed ws (b! "[" ++ commas ts ++ b! "]") := by
  by_cases hn : ts = []
  · subst hn
    exact formed_val hw (Gr.arr0 (W := ws) [] hw)
  · obtain ⟨js, hj⟩ := gr_formed_elems h hn
    have := formed_val hw (Gr.arr (W := ws) js _ hj)
    simpa using this

/-- A member: a string, a colon and a value. -/
def MemberFormed (ws : Bytes → Prop) (t : Bytes) : Prop := ∃ k s, StrFormed ws k ∧ Formed ws s ∧ t = k ++ b! ":" ++ s

theorem gr_formed_members : ∀ {ts : List Bytes}, (∀ t ∈ ts, MemberFormed ws t) → ts ≠ [] → ∃ ms, Gr ws (.members ms) (commas ts)
  | [], _, hn => absurd rfl hn
  | [t], h, _ => by
    obtain ⟨_, _, ⟨w1, kb, w2, c, h1, h2, h3, rfl⟩, ⟨w3, s, w4, j, h4, h5, h6, rfl⟩, rfl⟩ := h t (by simp)
    exact ⟨[(c, j)], by simpa [commas] using Gr.member (W := ws) w1 kb w2 w3 s w4 c j h1 h3 h2 h4 h6 h5⟩
  | t :: t' :: ts, h, _ => by
    obtain ⟨_, _, ⟨w1, kb, w2, c, h1, h2, h3, rfl⟩, ⟨w3, s, w4, j, h4, h5, h6, rfl⟩, rfl⟩ := h t (by simp)
    obtain ⟨ms, hj⟩ := gr_formed_members (ts := t' :: ts) (fun x hx => h x (List.mem_cons_of_mem _ hx)) (by simp)
    exact ⟨(c, j) :: ms, by simpa [commas] using Gr.memberCons (W := ws) w1 kb w2 w3 s w4 _ c j _ h1 h3 h2 h4 h6 h5 hj⟩

theorem formed_obj {ts : List Bytes} (hw : ws []) (h : ∀ t ∈ ts, MemberFormed ws t) : Formed ws (b! "{" ++ commas ts ++ b! "}") := by
  by_cases hn : ts = []
  · subst hn
    exact formed_val hw (Gr.obj0 (W := ws) [] hw)
  · obtain ⟨js, hj⟩ := gr_formed_members h hn
    have := formed_val hw (Gr.obj (W := ws) js _ hj)
    simpa using this

theorem spelledAs_body {s b : Bytes} (h : SpelledAs o s b) (hs : bmHas o.flags .noStringEscaping = true → unescape s ≠ none) : ∃ c, unescape b = some c := by
  cases he : bmHas o.flags .noStringEscaping with
  | true =>
    cases h with
    | raw => cases hu : unescape s with
      | none => exact absurd hu (hs he)
      | some c => exact ⟨c, rfl⟩
    | escaped h => rw [h] at he; cases he
  | false =>
    obtain ⟨r, h1, h2⟩ := appendEscaped_spelled o s
    obtain ⟨body, c, h3, h4, -⟩ := escaped_text he s
    have := (h2 []).symm.trans (h3 [])
    simp only [List.nil_append] at this
    rw [spelledAs_unique h h1, this]
    exact ⟨c, h4⟩

theorem copiedAs_formed {s b : Bytes} {j : Json} (hw : ws []) (h : CopiedAs o s b) (hc : bmHas o.flags .noCompact = false) (hj : JsonText j s) :
    Formed ws b := by
  cases h with
  | verbatim h => rw [h] at hc; cases hc
  | compact _ h =>
    obtain ⟨r, h1, h2⟩ := appendCompactJSON_squeezed (!bmHas o.flags .noHTMLEscaping) s
    obtain ⟨out, h3, h4⟩ := C14_compact_value [] s (!bmHas o.flags .noHTMLEscaping) j hj
    rw [h2] at h3
    rw [squeezed_unique h h1, List.append_cancel_left h3]
    exact formed_compact hw h4

theorem floatText_number {fmt : FloatFmt} (hl : FormatContract fmt) {w : FWidth} {bits : Nat} {b : Bytes} (h : FloatText fmt w bits b) : IsNumber b := by
  obtain ⟨out, m, e, h1, h2, h3, -⟩ := Props.C09_finite fmt hl [] w bits (floatText_finite h)
  rw [floatText_unique h (appendFloat_text (by rw [h1]))]
  exact numDenotes_isNumber h3

theorem minusDigits_plain : ∀ (w n : Nat), ∀ c ∈ minusDigits w n, PlainByte c
  | 0, _, c, h => by simp [minusDigits] at h
  | w + 1, n, c, h => by
    simp only [minusDigits, List.mem_append, List.mem_singleton] at h
    rcases h with h | rfl
    · exact minusDigits_plain w _ c h
    · have h : n % 10 < 10 := Nat.mod_lt _ (by omega)
      generalize n % 10 = d at *
      have : ∀ d : Fin 10, PlainByte (UInt8.ofNat (48 - d.val)) := by decide
      exact this ⟨d, h⟩

theorem fracText_plain {f : Bytes} {k n : Nat} (h : FracText f k n) : ∀ c ∈ f, PlainByte c := by
  rcases h with ⟨rfl, -⟩ | ⟨a, e, rfl, -, hd, -, -⟩
  · simp
  · intro c hc
    rcases List.mem_cons.mp hc with rfl | hc
    · decide
    · exact isDigit_plain (hd c hc)

theorem zoneText_plain (z : Int) : ∀ c ∈ zoneText z, PlainByte c := by
  have hp := padDigits_plain
  unfold zoneText
  split
  · decide
  · refine plain_append (plain_append (plain_append ?_ (hp _ _)) ?_) (hp _ _)
    · split <;> decide
    · decide

theorem timeWritten_plain {x : GoTime} {nano : Bool} {text : Bytes} (h : TimeWritten x nano text) : unescape text = some text := by
  rcases h with ⟨-, h⟩ | ⟨-, h⟩
  · exact rfc3339_plain h
  · obtain ⟨day, y, mo, d, h, mi, s, f, -, -, -, -, -, -, hf, rfl⟩ := h
    apply unescape_plain
    have hp := padDigits_plain
    have hm := minusDigits_plain
    refine plain_append (plain_append (plain_append (plain_append (plain_append (plain_append (plain_append (plain_append (plain_append (plain_append
      (plain_append (plain_append (hp _ _) ?_) (hp _ _)) ?_) (hp _ _)) ?_) (hm _ _)) ?_) (hm _ _)) ?_) (hm _ _)) (fracText_plain hf)) (zoneText_plain _) <;> decide

theorem clockText_plain {u : Nat} {b : Bytes} (h : ClockText u b) : ∀ c ∈ b, PlainByte c := by
  have hi : ∀ {i : Bytes} {z : Int}, IntLiteral i z → ∀ c ∈ i, PlainByte c := fun h => number_plain (intLiteral_isNumber h)
  cases h with
  | zero => decide
  | ns _ _ h => exact plain_append (hi h) (by decide)
  | us _ _ h h' => exact plain_append (plain_append (hi h) (fracText_plain h')) (by decide)
  | ms _ _ h h' => exact plain_append (plain_append (hi h) (fracText_plain h')) (by decide)
  | s _ _ h h' => exact plain_append (plain_append (hi h) (fracText_plain h')) (by decide)
  | m _ _ h1 h2 h3 => exact plain_append (plain_append (plain_append (plain_append (hi h1) (by decide)) (hi h2)) (fracText_plain h3)) (by decide)
  | h _ h1 h2 h3 h4 =>
    exact plain_append (plain_append (plain_append (plain_append (plain_append (plain_append (hi h1) (by decide)) (hi h2)) (by decide)) (hi h3)) (fracText_plain h4)) (by decide)

/-- A duration is a number, or a string if so asked. -/
theorem durationText_formed (hl : FormatContract W.fmt) {d : Int64} {b : Bytes} (h : DurationText W o d b) :
    (o.durFmt = .str ∧ ∃ t, unescape t = some t ∧ b = b! "\"" ++ t ++ b! "\"") ∨ (o.durFmt ≠ .str ∧ IsNumber b) := by
  cases h with
  | str h0 _ h => exact .inl ⟨h0, _, unescape_plain _ (clockText_plain h), rfl⟩
  | @neg c h0 _ h => exact .inl ⟨h0, b! "-" ++ c, unescape_plain _ (plain_append (by decide) (clockText_plain h)), by simp⟩
  | ns h0 h => exact .inr ⟨by simp [h0], intLiteral_isNumber h⟩
  | us h0 h => exact .inr ⟨by simp [h0], intLiteral_isNumber h⟩
  | ms h0 h => exact .inr ⟨by simp [h0], intLiteral_isNumber h⟩
  | sec h0 h => exact .inr ⟨by simp [h0], floatText_number hl h⟩
  | min h0 h => exact .inr ⟨by simp [h0], floatText_number hl h⟩

/-- A time is a number if so asked, and otherwise a string. -/
theorem timeText_formed {x : GoTime} {b : Bytes} (h : TimeText W o x b)
    (hs : ∀ l, bmHas o.flags .unixTime = false → o.layout = .other l → unescape (W.appendFormat x l) ≠ none) :
    (bmHas o.flags .unixTime = true ∧ IsNumber b) ∨ (bmHas o.flags .unixTime = false ∧ ∃ t c, unescape t = some c ∧ b = b! "\"" ++ t ++ b! "\"") := by
  cases h with
  | unix h0 h => exact .inl ⟨h0, intLiteral_isNumber h⟩
  | rfc3339 h0 _ h => exact .inr ⟨h0, _, _, timeWritten_plain h, rfl⟩
  | nano h0 _ h => exact .inr ⟨h0, _, _, timeWritten_plain h, rfl⟩
  | layout h0 h =>
    cases hu : unescape (W.appendFormat x _) with
    | none => exact absurd hu (hs _ h0 h)
    | some c => exact .inr ⟨h0, _, _, hu, rfl⟩

theorem namedAs_body (hU : TablesOk W.U.isLetter W.U.isDigit) {name r : Bytes} (hn : TagName W.U.isLetter W.U.isDigit name) (h : NamedAs o name r) :
    unescape r = some name := by
  obtain ⟨r', h1, h2⟩ := fieldKey_named o name
  obtain ⟨body, h3, h4⟩ := fieldKey_keyOf (o := o) hU hn
  rw [h2] at h3
  have : r' = body := by
    simp only [strToken, List.cons_append, List.nil_append, List.append_assoc, List.cons.injEq, true_and] at h3
    exact List.append_cancel_right h3
  rw [namedAs_unique h h1, this]
  exact h4

end Jettison.Proofs
