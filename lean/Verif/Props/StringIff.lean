import Verif.Props.StringTag
import Verif.Proofs.Body
import Verif.Proofs.Parser

/-!
# On which strings the `string` option is right (C38)

The content of the JSON string that a string field with the option encodes to is a JSON
text of the value exactly if there is no quote, no backslash and no control character in
the string. With one of them it is a text of another value, or no JSON text at all.
-/

namespace Jettison.Props
open Jettison Jettison.Spec Jettison.Model Jettison.Proofs

variable {W : World} {H : Heap} {M : MethV} {o : EncOpts} {t : TId} {ca q : Bool} {i : Instr} {p : Loc}

theorem utf8Encode_len (u : Nat) : (utf8Encode u).length ≤ 4 := by
  unfold utf8Encode
  repeat' split
  all_goals simp

/-- A body is at least as long as its content, and longer if there is an escape in it. -/
theorem body_length {b s : Bytes} (h : Body b s) : s.length ≤ b.length ∧ (s.length = b.length → ∀ c ∈ b, PlainByte c) := by
  have hr : replacement.length = 3 := rfl
  induction h with
  | nil => simp
  | raw c t s h1 h2 h3 _ ih =>
    simp only [List.length_cons, Nat.add_le_add_iff_right, Nat.add_right_cancel_iff, List.mem_cons]
    exact ⟨ih.1, fun h x hx => hx.elim (fun h => h ▸ ⟨h1, h2, h3⟩) (ih.2 h x)⟩
  | esc e b t s _ _ _ ih => simp only [List.length_cons]; exact ⟨by omega, by intro h; omega⟩
  | uni a b c d u t s _ _ _ ih =>
    have := utf8Encode_len u
    simp only [List.length_cons, List.length_append]; exact ⟨by omega, by intro h; omega⟩
  | low a b c d u t s _ _ _ _ ih => simp only [List.length_cons, List.length_append, hr]; exact ⟨by omega, by intro h; omega⟩
  | pair a b c d l1 l2 l3 l4 u v t s _ _ _ _ _ _ _ ih =>
    have := utf8Encode_len (0x10000 + (u - 0xD800) * 1024 + (v - 0xDC00))
    simp only [List.length_cons, List.length_append]; exact ⟨by omega, by intro h; omega⟩
  | high a b c d u t s _ _ _ _ _ ih => simp only [List.length_cons, List.length_append, hr]; exact ⟨by omega, by intro h; omega⟩

/-- A string body stands for itself if and only if there is nothing to escape in it. -/
theorem unescape_self {b : Bytes} : unescape b = some b ↔ ∀ c ∈ b, PlainByte c :=
  ⟨fun h => (body_length (unescape_iff_body.mp h)).2 rfl, unescape_plain b⟩

theorem plain_high : ∀ c : UInt8, 0x80 ≤ c → PlainByte c := by
  refine forall_byte ?_
  decide +kernel

/-- Coercion touches no ASCII byte. -/
theorem coerced_plain {s c : Bytes} (h : Coerced s c) : (∀ x ∈ c, PlainByte x) ↔ ∀ x ∈ s, PlainByte x := by
  induction h with
  | nil => rfl
  | good cp rest out hs _ ih => simp only [List.mem_append, or_imp, forall_and, ih]
  | bad b rest out hb _ ih =>
    have h1 : ∀ x ∈ replacement, PlainByte x := by decide +kernel
    have h2 : PlainByte b := by
      refine plain_high b ?_
      by_cases h : b.toNat < 0x80
      · refine absurd ?_ (hb b.toNat (.inl (by omega)))
        have : utf8Encode b.toNat = [b] := by simp [utf8Encode, h]
        rw [this]
        exact ⟨rest, rfl⟩
      · exact UInt8.le_iff_toNat_le.mpr (by simpa using h)
    simp only [List.mem_append, List.mem_cons, or_imp, forall_and, ih, forall_eq]
    exact ⟨fun h => ⟨h2, h.2⟩, fun h => ⟨h1, h.2⟩⟩

theorem body_noescape {b s : Bytes} (h : Body b s) (hn : c! '\\' ∉ b) : s = b := by
  induction h with
  | nil => rfl
  | raw c t s _ _ _ _ ih => simp only [List.mem_cons, not_or] at hn; rw [ih hn.2]
  | esc | uni | low | pair | high => simp at hn

theorem quote_not_ws : ¬ IsWs (c! '"') := by decide +kernel

/-- A JSON text between two quotes is a string token. -/
theorem jsonText_quoted {b c : Bytes} : JsonText (.str c) (b! "\"" ++ b ++ b! "\"") ↔ unescape b = some c := by
  constructor
  · rintro ⟨w1, s, w2, h1, h2, hg, he⟩
    cases hg with
    | str body _ hu =>
      have e1 : w1 = [] := by
        cases w1 with
        | nil => rfl
        | cons x w =>
          simp only [List.cons_append, List.nil_append, List.cons.injEq] at he
          exact absurd (he.1 ▸ h1 x (by simp)) quote_not_ws
      have e2 : w2 = [] := by
        rcases List.eq_nil_or_concat w2 with h | ⟨w, x, rfl⟩
        · exact h
        · have he' : (b! "\"" ++ b) ++ [c! '"'] = (w1 ++ strToken body ++ w) ++ [x] := by rw [he]; simp
          have hx := (List.append_inj' he' rfl).2
          simp only [List.cons.injEq, and_true] at hx
          exact absurd (hx ▸ h2 x (by simp)) quote_not_ws
      subst e1 e2
      simp [strToken] at he
      rw [he]
      exact hu
  · exact fun h => ⟨[], _, [], (fun _ h => nomatch h), (fun _ h => nomatch h), .str b c h, by simp [strToken]⟩

/-- C38 for strings, exactly: `body` is what the string `s` is encoded to without the option
and `c` the string it denotes, `quoted` what it is encoded to with the option and `text` the
content of that JSON string. This is a JSON text of `c` if and only if there is nothing in `s`
that JSON does not allow in a string as it is; and it is the text without the option if and
only if nothing at all is escaped in that. -/
theorem C38_string_iff {s : Bytes} (R : Ready W H M) (S : Stands W H t ca true i p (.str s)) (hb : ByKind W.E t ca) (hk : (W.E t).kind = .string)
    (he : bmHas o.flags .noStringEscaping = false) :
    ∃ j body c quoted text, Stands W H t ca false j p (.str s) ∧
      (∀ n path dst, run W H o (n + 1) path j p dst = .ok (dst ++ strToken body)) ∧ unescape body = some c ∧
      (bmHas o.flags .noUTF8Coercion = false → Coerced s c) ∧ (bmHas o.flags .noUTF8Coercion = true → c = s) ∧
      (∀ n path dst, run W H o (n + 1) path i p dst = .ok (dst ++ strToken quoted)) ∧ unescape quoted = some text ∧
      (JsonText (.str c) text ↔ ∀ x ∈ s, 0x20 ≤ x.toNat ∧ x ≠ c! '"' ∧ x ≠ c! '\\') ∧
      (text = strToken body ↔ c! '\\' ∉ body) := by
  obtain ⟨k, hm⟩ := S.made
  have hi := byKind_basic hb (by rw [hk]; rfl) hm
  rw [hk] at hi
  cases hi
  obtain ⟨s', hs, hat⟩ := repr_str R.types hk S.holds
  cases hs
  have he' : o.esc.noStringEscaping = false := he
  obtain ⟨out, hesc, ha⟩ := appendEscapedBytes_spec [] s o.esc he'
  have hpre : ∀ dst, appendEscapedBytes dst s o.esc = dst ++ out := by
    intro dst
    have := pre_escaped s o.esc dst
    simp only [ha, Res.after, List.nil_append, Res.ok.injEq] at this
    exact this
  obtain ⟨c, hc, h1, h2⟩ : ∃ c, unescape out = some c ∧ (o.esc.noUTF8Coercion = false → Coerced s c) ∧ (o.esc.noUTF8Coercion = true → c = s) := by
    by_cases hc : o.esc.noUTF8Coercion = true
    · exact ⟨s, esc_raw hc hesc, fun h => by simp [hc] at h, fun _ => rfl⟩
    · obtain ⟨c, hr, h⟩ := esc_coerced (by simpa using hc) hesc
      exact ⟨c, h, fun _ => hr, fun h => absurd h hc⟩
  refine ⟨.string, out, c, b! "\\\"" ++ out ++ b! "\\\"", b! "\"" ++ c ++ b! "\"", stands_unquoted S hb (by rw [hk]; rfl), ?_, hc, h1, h2, ?_, unescape_quoted hc, ?_, ?_⟩
  · intro n path dst
    simp [run, exec, readStr, hat, withRead, encodeString, hpre, strToken]
  · intro n path dst
    simp [run, exec, readStr, hat, withRead, encodeQuotedString, hpre, strToken]
  · rw [jsonText_quoted, unescape_self]
    by_cases hn : o.esc.noUTF8Coercion = true
    · rw [h2 hn]; rfl
    · exact coerced_plain (h1 (by simpa using hn))
  · have e : b! "\"" ++ c ++ b! "\"" = strToken out ↔ c = out := by simp [strToken]
    rw [e]
    constructor
    · rintro rfl hx
      exact (unescape_self.mp hc _ hx).2.2 rfl
    · exact body_noescape (unescape_iff_body.mp hc)

/-- Finding 3, without any malformed text: with a backslash in it the string is encoded to a
JSON string whose content is a JSON text of another string. -/
theorem C38_other_string_wrong : ∃ H v out body text c, Ready wrongW H (univM wrongMeth) ∧ ReprE wrongW.E H.mem (some (14, 100)) (.iface 14 v) ∧
    v = .struct [.str (b! "a\\n"), .str (b! "a\\n")] ∧ marshal wrongW H 5 (some (14, 100)) = .ret (some out) none ∧
    out = b! "{\"s\":" ++ strToken body ++ b! ",\"t\":\"a\\\\n\"}" ∧ unescape body = some text ∧ JsonText (.str c) text ∧ c ≠ b! "a\\n" :=
  ⟨wrongH [(100, .str (b! "a\\n")), (116, .str (b! "a\\n"))], _, b! "{\"s\":\"\\\"a\\\\n\\\"\",\"t\":\"a\\\\n\"}", b! "\\\"a\\\\n\\\"", b! "\"a\\n\"", b! "a\n",
    wrong_ready _, wrong_holds 5 (by decide +kernel), rfl, by decide +kernel, by decide +kernel, by decide +kernel,
    jsonText_quoted (b := b! "a\\n").mpr (by decide +kernel), by decide +kernel⟩

/-- The hypotheses of `C38_string_iff`, and a string on which the option is right although
something is escaped. -/
example : (∃ i p, Stands (univW tagDefs) (univHeap tagDefs shopMeth [(100, .str (b! "a<é"))]) 2 false true i p (.str (b! "a<é"))) ∧
    ByKind (univW tagDefs).E 2 false ∧ ((univW tagDefs).E 2).kind = .string ∧
    Ready (univW tagDefs) (univHeap tagDefs shopMeth [(100, .str (b! "a<é"))]) (univM shopMeth) ∧
    (∀ x ∈ b! "a<é", 0x20 ≤ x.toNat ∧ x ≠ c! '"' ∧ x ≠ c! '\\') ∧ bmHas defaultEncOpts.flags .noStringEscaping = false := by
  refine ⟨⟨.quotedString, .heap 100, ⟨9, by decide +kernel⟩, ?_, fun h => nomatch h⟩, byKind_of (by decide +kernel), by decide +kernel,
    univ_ready tag_ok shopMeth _, by decide +kernel, by decide +kernel⟩
  exact .str (by decide +kernel) (by decide +kernel)

end Jettison.Props
