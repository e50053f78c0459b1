import Verif.Spec.Doc
import Verif.Props.StringTag
import Verif.Props.Time
import Verif.Props.Duration
import Verif.Props.Number
import Verif.Props.Methods
import Verif.Props.Maps

/-! # Texts and trees of single values -/

namespace Jettison.Proofs
open Jettison Jettison.Spec Jettison.Model Jettison.Props

/-! ## Grammar -/

theorem noWs_nil : NoWs [] := rfl

theorem gr_elems {ts : List Bytes} {js : List Json} (h : All2 (fun t j => CompactText j t) ts js) (hn : ts ≠ []) : Gr NoWs (.elems js) (commas ts) := by
  induction h with
  | nil => exact absurd rfl hn
  | @cons t j ts js h1 h2 ih =>
    cases h2 with
    | nil =>
      have := Gr.elem (W := NoWs) [] t [] j noWs_nil h1 noWs_nil
      simpa [commas] using this
    | @cons t' j' ts js h3 h4 =>
      have := Gr.elemCons (W := NoWs) [] t [] _ j _ noWs_nil h1 noWs_nil (ih (by simp))
      simpa [commas] using this

theorem compact_arr {ts : List Bytes} {js : List Json} (h : All2 (fun t j => CompactText j t) ts js) :
    CompactText (.arr js) (b! "[" ++ commas ts ++ b! "]") := by
  by_cases hn : ts = []
  · subst hn
    cases h
    exact Gr.arr0 (W := NoWs) [] noWs_nil
  · have := Gr.arr (W := NoWs) js _ (gr_elems h hn)
    simpa [CompactText] using this

/-- A member text with its name and tree. -/
def MemberIs (t : Bytes) (m : Bytes × Json) : Prop := ∃ kb s, t = strToken kb ++ (c! ':' :: s) ∧ unescape kb = some m.1 ∧ CompactText m.2 s

theorem gr_members {ts : List Bytes} {ms : List (Bytes × Json)} (h : All2 MemberIs ts ms) (hn : ts ≠ []) : Gr NoWs (.members ms) (commas ts) := by
  induction h with
  | nil => exact absurd rfl hn
  | @cons t m ts ms h1 h2 ih =>
    obtain ⟨kb, s, rfl, hk, hs⟩ := h1
    obtain ⟨k, j⟩ := m
    cases h2 with
    | nil =>
      have := Gr.member (W := NoWs) [] kb [] [] s [] k j noWs_nil hk noWs_nil noWs_nil hs noWs_nil
      simpa [commas] using this
    | cons h3 h4 =>
      have := Gr.memberCons (W := NoWs) [] kb [] [] s [] _ k j _ noWs_nil hk noWs_nil noWs_nil hs noWs_nil (ih (by simp))
      simpa [commas] using this

theorem compact_obj {ts : List Bytes} {ms : List (Bytes × Json)} (h : All2 MemberIs ts ms) :
    CompactText (.obj ms) (b! "{" ++ commas ts ++ b! "}") := by
  by_cases hn : ts = []
  · subst hn
    cases h
    exact Gr.obj0 (W := NoWs) [] noWs_nil
  · have := Gr.obj (W := NoWs) ms _ (gr_members h hn)
    simpa [CompactText] using this

theorem compact_bool (b : Bool) : CompactText (.bool b) (encodeBool b []) := by
  cases b
  · exact Gr.false
  · exact Gr.true

/-! ## Strings -/

theorem escaped_text {o : EncOpts} (he : bmHas o.flags .noStringEscaping = false) (s : Bytes) :
    ∃ body c, (∀ dst, appendEscapedBytes dst s o.esc = dst ++ body) ∧ unescape body = some c ∧ StrContent o s c := by
  have he' : o.esc.noStringEscaping = false := he
  obtain ⟨out, hesc, ha⟩ := appendEscapedBytes_spec [] s o.esc he'
  have hpre : ∀ dst, appendEscapedBytes dst s o.esc = dst ++ out := by
    intro dst
    have := pre_escaped s o.esc dst
    simp only [ha, Res.after, List.nil_append, Res.ok.injEq] at this
    exact this
  cases hc : bmHas o.flags .noUTF8Coercion with
  | true => exact ⟨out, s, hpre, esc_raw hc hesc, fun _ => rfl, fun h => by rw [hc] at h; cases h⟩
  | false =>
    obtain ⟨c, h1, h2⟩ := esc_coerced hc hesc
    exact ⟨out, c, hpre, h2, fun h => (by rw [hc] at h; cases h), fun _ => h1⟩

theorem encodeString_text {o : EncOpts} (he : bmHas o.flags .noStringEscaping = false) (s : Bytes) :
    ∃ body c, encodeString s [] o.esc = strToken body ∧ unescape body = some c ∧ StrContent o s c := by
  obtain ⟨body, c, h1, h2, h3⟩ := escaped_text he s
  exact ⟨body, c, by simp [encodeString, h1, strToken], h2, h3⟩

theorem strContent_unique {o : EncOpts} {s c c' : Bytes} (h : StrContent o s c) (h' : StrContent o s c') (hv : ∀ a b, Coerced s a → Coerced s b → a = b) : c = c' := by
  cases hc : bmHas o.flags .noUTF8Coercion with
  | true => rw [h.1 hc, h'.1 hc]
  | false => exact hv _ _ (h.2 hc) (h'.2 hc)

/-! ## Numbers, times, durations -/

theorem digitByte_plain (n : Nat) : PlainByte (UInt8.ofNat (48 + n % 10)) := by
  have h : n % 10 < 10 := Nat.mod_lt _ (by omega)
  generalize n % 10 = d at *
  have : ∀ d : Fin 10, PlainByte (UInt8.ofNat (48 + d.val)) := by decide
  exact this ⟨d, h⟩

theorem padDigits_plain : ∀ (w n : Nat), ∀ c ∈ padDigits w n, PlainByte c
  | 0, _, c, h => by simp [padDigits] at h
  | w + 1, n, c, h => by
    simp only [padDigits, List.mem_append, List.mem_singleton] at h
    rcases h with h | rfl
    · exact padDigits_plain w _ c h
    · exact digitByte_plain n

theorem plain_append {a b : Bytes} (ha : ∀ c ∈ a, PlainByte c) (hb : ∀ c ∈ b, PlainByte c) : ∀ c ∈ a ++ b, PlainByte c := by
  intro c hc
  rcases List.mem_append.mp hc with h | h
  · exact ha c h
  · exact hb c h

theorem isDigit_plain {c : UInt8} (h : IsDigit c) : PlainByte c := by
  have key : ∀ c : UInt8, IsDigit c → PlainByte c := by
    refine forall_byte ?_
    decide +kernel
  exact key c h

theorem rfc3339_plain {x : GoTime} {nano : Bool} {text : Bytes} (h : IsRFC3339 x nano text) : unescape text = some text := by
  obtain ⟨y, mo, d, hh, mi, s, f, -, -, hf, rfl⟩ := h
  apply unescape_plain
  have hp := padDigits_plain
  refine plain_append (plain_append ?_ ?_) ?_
  · unfold dateTimeText
    refine plain_append (plain_append (plain_append (plain_append (plain_append (plain_append (plain_append (plain_append (plain_append (plain_append
      (hp _ _) ?_) (hp _ _)) ?_) (hp _ _)) ?_) (hp _ _)) ?_) (hp _ _)) ?_) (hp _ _) <;> decide
  · rcases hf with ⟨rfl, -⟩ | ⟨a, e, rfl, -, hd, -, -⟩
    · simp
    · intro c hc
      rcases List.mem_cons.mp hc with rfl | hc
      · decide
      · exact isDigit_plain (hd c hc)
  · unfold zoneText
    split
    · decide
    · refine plain_append (plain_append (plain_append ?_ (hp _ _)) ?_) (hp _ _)
      · split <;> decide
      · decide

theorem civil_bound {l : Int} {y mo d h mi s : Nat} (hc : CivilTime l y mo d h mi s) (hy : y ≤ 9999) :
    l + epochSeconds < (dayNumber 10000 1 1 * 86400 : Nat) := by
  apply Int.lt_of_not_ge
  intro hge
  obtain ⟨⟨m1, m2, d1, d2⟩, h1, h2, h3, h4⟩ := hc
  have hm : dayNumber y mo d < daysBeforeYear (y + 1) := by
    unfold dayNumber
    have hb : daysBeforeMonth y mo + daysInMonth y mo ≤ if IsLeap y then 366 else 365 := by
      have : mo = 1 ∨ mo = 2 ∨ mo = 3 ∨ mo = 4 ∨ mo = 5 ∨ mo = 6 ∨ mo = 7 ∨ mo = 8 ∨ mo = 9 ∨ mo = 10 ∨ mo = 11 ∨ mo = 12 := by omega
      rcases this with rfl | rfl | rfl | rfl | rfl | rfl | rfl | rfl | rfl | rfl | rfl | rfl <;>
        simp only [daysBeforeMonth, daysInMonth] <;> split <;> omega
    simp only [daysBeforeYear]
    omega
  have hmono : ∀ a b, a ≤ b → daysBeforeYear a ≤ daysBeforeYear b := by
    intro a b hab
    induction hab with
    | refl => exact Nat.le_refl _
    | step _ ih => simp only [daysBeforeYear]; omega
  have h5 := hmono (y + 1) 10000 (by omega)
  have h6 : dayNumber 10000 1 1 = daysBeforeYear 10000 + daysBeforeMonth 10000 1 + (1 - 1) := rfl
  have h7 : daysBeforeMonth 10000 1 = 0 := rfl
  generalize daysBeforeYear 10000 = A at *
  generalize dayNumber 10000 1 1 = B at *
  omega

theorem time_tree {W : World} {o : EncOpts} {x : GoTime} (hf : TimeFine W o x) {b : Bytes}
    (h : (encodeTime W.appendFormat x [] (bmHas o.flags .unixTime) o.layout).res .timeRange [] = .ok b) :
    ∃ j, CompactText j b ∧ TimeTree W o x j := by
  have hne : ∃ y mo d h mi s, y ≤ 9999 ∧ CivilTime (x.unix + x.offset) y mo d h mi s := by
    apply Classical.byContradiction
    intro hn
    rw [(Props.C11_year_range W.appendFormat x [] (bmHas o.flags .unixTime) o.layout).mpr hn] at h
    cases h
  obtain ⟨y, mo, d, hh, mi, s, hy, hc⟩ := hne
  cases hu : bmHas o.flags .unixTime with
  | true =>
    rw [hu] at h
    obtain ⟨text, h1, h2⟩ := Props.C11_unix_time W.appendFormat x [] o.layout hy hc hf.unix
    rw [h1] at h
    simp only [BRes.res, List.nil_append, Res.ok.injEq] at h
    subst h
    exact ⟨_, Gr.num _ (intLiteral_isNumber h2), .unix hu h2⟩
  | false =>
    rw [hu] at h
    cases hl : o.layout with
    | rfc3339 =>
      obtain ⟨text, h1, h2⟩ := Props.C10_rfc3339_partial W.appendFormat x [] false hf.nsec (hf.year hu (.inl hl)) (civil_bound hc hy)
      simp only [Bool.false_eq_true, if_false] at h2
      rw [hl, h2] at h
      simp only [BRes.res, List.nil_append, Res.ok.injEq] at h
      subst h
      exact ⟨.str text, Gr.str text text (rfc3339_plain h1), .rfc3339 hu hl h1⟩
    | rfc3339Nano =>
      obtain ⟨text, h1, h2⟩ := Props.C10_rfc3339_partial W.appendFormat x [] true hf.nsec (hf.year hu (.inr hl)) (civil_bound hc hy)
      simp only [if_true] at h2
      rw [hl, h2] at h
      simp only [BRes.res, List.nil_append, Res.ok.injEq] at h
      subst h
      exact ⟨.str text, Gr.str text text (rfc3339_plain h1), .nano hu hl h1⟩
    | other l =>
      have hg := goYear_civil x hc
      rw [hl] at h
      simp only [encodeTime] at h
      rw [if_neg (by omega)] at h
      simp only [Bool.false_eq_true, if_false, BRes.res, List.nil_append, Res.ok.injEq] at h
      subst h
      exact ⟨_, Gr.str _ _ (hf.layout hu l hl), .layout hu hl⟩

theorem float_tree {fmt : FloatFmt} (hl : FormatContract fmt) {w : FWidth} {bits : Nat} {b : Bytes} (h : appendFloat fmt [] w bits = .ok b) :
    CompactText (.num b) b ∧ FloatLit fmt w bits b := by
  have hf : IsFinite w bits := by
    apply Classical.byContradiction
    intro hn
    rw [(Props.C09_nonfinite fmt [] w bits).mpr hn] at h
    cases h
  obtain ⟨out, m, e, h1, h2, h3, -⟩ := Props.C09_finite fmt hl [] w bits hf
  rw [h1] at h
  simp only [List.nil_append, Except.ok.injEq] at h
  subst h
  exact ⟨Gr.num _ (numDenotes_isNumber h3), hf, _, m, e, h2, h3⟩

theorem duration_tree {W : World} {o : EncOpts} (hl : FormatContract W.fmt) {d : Int64} {b : Bytes}
    (h : (encodeDuration W.fmt W.df d [] o.durFmt).res (.unsupportedValue .f64 (durFloatOf W.df d o.durFmt)) [] = .ok b) : ∃ j, CompactText j b ∧ DurTree W o d j := by
  obtain ⟨⟨t1, a1, b1⟩, ⟨t2, a2, b2⟩, ⟨t3, a3, b3⟩⟩ := Props.C13_numeric W.fmt W.df d []
  cases hd : o.durFmt with
  | str =>
    obtain ⟨t, h1, h2, h3⟩ := Props.C12_denotes W.fmt W.df d []
    rw [hd, h1] at h
    simp only [BRes.res, List.nil_append, Res.ok.injEq] at h
    subst h
    exact ⟨.str t, Gr.str t t h3, .str hd h2⟩
  | nanoseconds =>
    rw [hd, a1] at h
    simp only [BRes.res, List.nil_append, Res.ok.injEq] at h
    subst h
    exact ⟨_, Gr.num _ (intLiteral_isNumber b1), .ns hd b1⟩
  | microseconds =>
    rw [hd, a2] at h
    simp only [BRes.res, List.nil_append, Res.ok.injEq] at h
    subst h
    exact ⟨_, Gr.num _ (intLiteral_isNumber b2), .us hd b2⟩
  | milliseconds =>
    rw [hd, a3] at h
    simp only [BRes.res, List.nil_append, Res.ok.injEq] at h
    subst h
    exact ⟨_, Gr.num _ (intLiteral_isNumber b3), .ms hd b3⟩
  | seconds =>
    rw [hd] at h
    simp only [encodeDuration] at h
    cases hf : appendFloat W.fmt [] .f64 (W.df.seconds d) with
    | error e => rw [hf] at h; cases h
    | ok b' =>
      rw [hf] at h
      cases h
      obtain ⟨h1, h2⟩ := float_tree hl hf
      exact ⟨_, h1, .sec hd h2⟩
  | minutes =>
    rw [hd] at h
    simp only [encodeDuration] at h
    cases hf : appendFloat W.fmt [] .f64 (W.df.minutes d) with
    | error e => rw [hf] at h; cases h
    | ok b' =>
      rw [hf] at h
      cases h
      obtain ⟨h1, h2⟩ := float_tree hl hf
      exact ⟨_, h1, .min hd h2⟩

/-! ## Reading trees back -/

theorem compact_str {c b : Bytes} (h : CompactText (.str c) b) : ∃ kb, b = strToken kb ∧ unescape kb = some c := by
  unfold CompactText at h
  generalize hn : Nt.val (.str c) = nt at h
  cases h <;> simp at hn
  next body c' hu => subst hn; exact ⟨body, rfl, hu⟩

theorem compact_num {c b : Bytes} (h : CompactText (.num c) b) : b = c ∧ IsNumber c := by
  unfold CompactText at h
  generalize hn : Nt.val (.num c) = nt at h
  cases h <;> simp at hn
  next hu => subst hn; exact ⟨rfl, hu⟩

theorem base64_plainBytes {b t : Bytes} (h : IsBase64 b t) : ∀ c ∈ t, PlainByte c := by
  obtain ⟨v, pad, h1, -, -, rfl, -⟩ := h
  have key : ∀ i, i < 64 → PlainByte (base64Alphabet.getD i 0) := by decide +kernel
  refine plain_append ?_ ?_
  · intro c hc
    obtain ⟨i, hi, rfl⟩ := List.mem_map.mp hc
    exact key i (h1 i hi)
  · intro c hc
    rw [List.eq_of_mem_replicate hc]
    decide

/-! ## Lists -/

theorem exists_list {α β : Type} {P : α → β → Prop} : ∀ {l : List α}, (∀ a ∈ l, ∃ b, P a b) → ∃ L : List (α × β), L.map Prod.fst = l ∧ ∀ z ∈ L, P z.1 z.2
  | [], _ => ⟨[], rfl, by simp⟩
  | a :: l, h => by
    obtain ⟨b, hb⟩ := h a (by simp)
    obtain ⟨L, h1, h2⟩ := exists_list (l := l) fun x hx => h x (by simp [hx])
    refine ⟨(a, b) :: L, by simp [h1], ?_⟩
    intro z hz
    rcases List.mem_cons.mp hz with rfl | hz
    · exact hb
    · exact h2 z hz

theorem all2_map {α β γ : Type} {R : β → γ → Prop} {f : α → β} {g : α → γ} : ∀ {l : List α}, (∀ a ∈ l, R (f a) (g a)) → All2 R (l.map f) (l.map g)
  | [], _ => .nil
  | a :: l, h => .cons (h a (by simp)) (all2_map fun x hx => h x (by simp [hx]))

theorem sublist_full {α : Type} {l m : List α} (h : l.Sublist m) (hd : m.Nodup) (ha : ∀ x ∈ m, x ∈ l) : l = m := by
  induction h with
  | slnil => rfl
  | @cons l m a h ih =>
    have h1 := h.subset (ha a (by simp))
    simp only [List.nodup_cons] at hd
    exact absurd h1 hd.1
  | @cons_cons l m a h ih =>
    simp only [List.nodup_cons] at hd
    rw [ih hd.2 fun x hx => ?_]
    rcases List.mem_cons.mp (ha x (by simp [hx])) with rfl | h'
    · exact absurd hx hd.1
    · exact h'

theorem asBytes_of : ∀ {vs : List Val} {b : Bytes}, bytesOf vs = some b → AsBytes vs b
  | [], b, h => by simp [bytesOf] at h; subst h; rfl
  | v :: vs, b, h => by
    unfold bytesOf at h
    split at h
    · next e => cases e
    · next c t e =>
      cases e
      simp only [Option.map_eq_some_iff] at h
      obtain ⟨b', h1, rfl⟩ := h
      have := asBytes_of h1
      unfold AsBytes at *
      simp [this]
    · cases h

/-! ## Methods or kind -/

theorem picks_or_byKind {E : Env} {t : TId} {ca : Bool} (hs : (E t).special = none) : ByKind E t ca ∨ ∃ m, Picks E t ca m := by
  by_cases h0 : Available E t ca .appendCtx
  · exact .inr ⟨_, h0, fun m' hm => by simp [precedence] at hm⟩
  by_cases h1 : Available E t ca .append
  · exact .inr ⟨_, h1, fun m' hm => by cases m' <;> simp [precedence] at hm; exact h0⟩
  by_cases h2 : Available E t ca .json
  · exact .inr ⟨_, h2, fun m' hm => by cases m' <;> simp [precedence] at hm <;> assumption⟩
  by_cases h3 : Available E t ca .text
  · exact .inr ⟨_, h3, fun m' hm => by cases m' <;> simp [precedence] at hm <;> assumption⟩
  left
  simp only [Available, not_or, not_and] at h0 h1 h2 h3
  simp only [has_appendCtx, has_append, has_json, has_text] at h0 h1 h2 h3
  refine ⟨hs, ?_, ?_⟩
  · simp only [MethSet.any, not_or]
    exact ⟨h0.1, h1.1, h2.1, h3.1⟩
  · intro hc hp
    have hp' : ¬ IsPtr E t := by rw [isPtr_iff, hp]; simp
    simp only [MethSet.any, not_or]
    exact ⟨h0.2 hc hp', h1.2 hc hp', h2.2 hc hp', h3.2 hc hp'⟩

theorem picks_unique {E : Env} {t : TId} {ca : Bool} {m m' : MethKind} (h : Picks E t ca m) (h' : Picks E t ca m') : m = m' := by
  have h1 := h.2 m'
  have h2 := h'.2 m
  have a := h.1
  have a' := h'.1
  have : precedence m = precedence m' := by
    rcases Nat.lt_trichotomy (precedence m) (precedence m') with h | h | h
    · exact absurd a (h2 h)
    · exact h
    · exact absurd a' (h1 h)
  cases m <;> cases m' <;> simp_all [precedence]

theorem picks_byKind {E : Env} {t : TId} {ca : Bool} {m : MethKind} (h : Picks E t ca m) (hb : ByKind E t ca) : False := by
  have hi := picks_instr h
  rw [byKind_marshaler hb] at hi
  cases hi

theorem available_ptr {E : Env} {t : TId} {m : MethKind} : Available E t (isPtrK (E t).kind) m ↔ Available E t false m := by
  unfold Available
  rw [isPtr_iff]
  cases isPtrK (E t).kind <;> simp

theorem picks_ptr {E : Env} {t : TId} {m : MethKind} : Picks E t (isPtrK (E t).kind) m ↔ Picks E t false m := by
  unfold Picks
  simp only [available_ptr]

theorem byKind_ptr' {E : Env} {t : TId} (h : ByKind E t false) : ByKind E t (isPtrK (E t).kind) :=
  ⟨h.special, h.meths, fun h1 h2 => by rw [h1] at h2; cases h2⟩

end Jettison.Proofs
