import Verif.Props.Levels
import Verif.Props.Strings
import Verif.Props.Wrong

/-!
# The `string` tag option (C38)

`Stands … true …`: the value of a field with the option, if the type of the field is
basic or an unnamed pointer to a basic type (`C20_C21_C22_object_partial`).
-/

namespace Jettison.Props
open Jettison Jettison.Spec Jettison.Model Jettison.Proofs

variable {W : World} {H : Heap} {M : MethV} {o : EncOpts} {t : TId} {ca q : Bool} {i : Instr} {p : Loc} {v : Val}

theorem number_plain {s : Bytes} (h : IsNumber s) : ∀ c ∈ s, PlainByte c := by
  have key : ∀ c : UInt8, NumByte c → PlainByte c := by
    refine forall_byte ?_
    decide +kernel
  exact fun c hc => key c (number_bytes h c hc)

/-- The same place, without the option. -/
theorem stands_unquoted (S : Stands W H t ca true i p v) (hb : ByKind W.E t ca) {j : Instr} (hj : newBasicTypeInstr (W.E t).kind false = some j) :
    Stands W H t ca false j p v := by
  refine ⟨⟨1, ?_⟩, S.holds, S.addr⟩
  simp only [newInstruction, byKind_go hb, byKind_marshaler hb, hj]

theorem lowSur_quote {t : Bytes} (h : LowSur (t ++ b! "\\\"")) : LowSur t := by
  have hx : hexVal (c! '\\') = none := by decide
  have hq : hexVal (c! '"') = none := by decide
  obtain ⟨l1, l2, l3, l4, rest, v, h1, h2, h3⟩ := h
  match t with
  | [] => simp at h1
  | [a] => simp at h1
  | [a, b] => simp at h1
  | [a, b, c] => simp at h1
  | [a, b, c, d] => simp at h1; simp [← h1.2.2.2.2.1, hex4, hx] at h2
  | [a, b, c, d, e] => simp at h1; simp [← h1.2.2.2.2.2.1, hex4, hx] at h2
  | a :: b :: c :: d :: e :: f :: t =>
    simp only [List.cons_append, List.cons.injEq] at h1
    obtain ⟨rfl, rfl, rfl, rfl, rfl, rfl, -⟩ := h1
    exact ⟨_, _, _, _, t, v, rfl, h2, h3⟩

theorem body_quote {b s : Bytes} (h : Body b s) : Body (b ++ b! "\\\"") (s ++ b! "\"") := by
  induction h with
  | nil => exact .esc _ _ _ _ (by decide) (by decide) .nil
  | raw c t s h1 h2 h3 _ ih => exact .raw c _ _ h1 h2 h3 ih
  | esc e b t s h1 h2 _ ih => exact .esc e b _ _ h1 h2 ih
  | uni a b c d u t s h1 h2 _ ih => rw [List.append_assoc]; exact .uni a b c d u _ _ h1 h2 ih
  | low a b c d u t s h1 h2 h3 _ ih => rw [List.append_assoc]; exact .low a b c d u _ _ h1 h2 h3 ih
  | pair a b c d l1 l2 l3 l4 u v t s h1 h2 h3 h4 h5 h6 _ ih => rw [List.append_assoc]; exact .pair a b c d l1 l2 l3 l4 u v _ _ h1 h2 h3 h4 h5 h6 ih
  | high a b c d u t s h1 h2 h3 h4 _ ih => rw [List.append_assoc]; exact .high a b c d u _ _ h1 h2 h3 (fun h => h4 (lowSur_quote h)) ih

theorem unescape_quoted {b s : Bytes} (h : unescape b = some s) : unescape (b! "\\\"" ++ b ++ b! "\\\"") = some (b! "\"" ++ s ++ b! "\"") := by
  rw [unescape_iff_body] at h ⊢
  exact .esc _ _ _ _ (by decide) (by decide) (body_quote h)

/-- C38 for booleans and numbers: the value is encoded as a JSON string whose content is the
text of the value without the option. -/
theorem C38_scalar (R : Ready W H M) (hl : FormatContract W.fmt) (S : Stands W H t ca true i p v) (hb : ByKind W.E t ca)
    (hk : (W.E t).kind = .bool ∨ (∃ k, (W.E t).kind = .int k) ∨ ∃ w, (W.E t).kind = .float w) :
    ∃ j, Stands W H t ca false j p v ∧ ∀ n path dst out, run W H o (n + 2) path i p dst = .ok out ↔
      ∃ text, run W H o (n + 1) path j p [] = .ok text ∧ out = dst ++ strToken text ∧ unescape text = some text := by
  have key : ∀ (j : Instr), newBasicTypeInstr (W.E t).kind false = some j → newBasicTypeInstr (W.E t).kind true = some (.quoted j) → isBasicK (W.E t).kind = true →
      (∀ path, (∃ text, (∀ n dst, run W H o (n + 1) path j p dst = .ok (dst ++ text)) ∧ ∀ c ∈ text, PlainByte c) ∨
        ∀ n dst out, run W H o (n + 1) path j p dst ≠ .ok out) →
      ∃ j, Stands W H t ca false j p v ∧ ∀ n path dst out, run W H o (n + 2) path i p dst = .ok out ↔
        ∃ text, run W H o (n + 1) path j p [] = .ok text ∧ out = dst ++ strToken text ∧ unescape text = some text := by
    intro j h1 h2 h3 h4
    obtain ⟨k, hm⟩ := S.made
    have hi := byKind_basic hb h3 hm
    rw [h2] at hi
    cases hi
    refine ⟨j, stands_unquoted S hb h1, fun n path dst out => ?_⟩
    have hrun : run W H o (n + 2) path (.quoted j) p dst = match run W H o (n + 1) path j p (dst ++ b! "\"") with | .ok dst => .ok (dst ++ b! "\"") | r => r := rfl
    rw [hrun]
    rcases h4 path with ⟨text, h5, h6⟩ | h5
    · rw [h5, h5]
      simp only [Res.ok.injEq, List.nil_append]
      constructor
      · rintro rfl
        exact ⟨text, rfl, by simp [strToken], unescape_plain _ h6⟩
      · rintro ⟨_, rfl, rfl, -⟩
        simp [strToken]
    · constructor
      · cases hr : run W H o (n + 1) path j p (dst ++ b! "\"") with
        | ok b => exact absurd hr (h5 _ _ _)
        | _ => intro h; cases h
      · rintro ⟨text, h, -⟩
        exact absurd h (h5 _ _ _)
  rcases hk with hk | ⟨k, hk⟩ | ⟨w, hk⟩
  · obtain ⟨b, rfl, hat⟩ := repr_bool R.types hk S.holds
    refine key .bool (by rw [hk]; rfl) (by rw [hk]; rfl) (by rw [hk]; rfl) fun path => .inl ⟨if b then b! "true" else b! "false", fun n dst => ?_, ?_⟩
    · cases b <;> simp [run, exec, readBool, hat, withRead, encodeBool]
    · cases b <;> decide
  · obtain ⟨x, rfl, hx, hat⟩ := repr_int R.types hk S.holds
    obtain ⟨text, h1, h2⟩ := C08_integer_number x []
    refine key (.int k) (by rw [hk]; rfl) (by rw [hk]; rfl) (by rw [hk]; rfl) fun path => .inl ⟨text, fun n dst => ?_, number_plain h2⟩
    have h0 : encodeIntVal x [] = text := by simpa using h1
    simp only [run, exec, readInt, hat, withRead, hx, if_true, encodeIntVal_eq x dst, h0]
  · obtain ⟨b, rfl, hat⟩ := repr_float R.types hk S.holds
    refine key (.float w) (by rw [hk]; rfl) (by rw [hk]; rfl) (by rw [hk]; rfl) fun path => ?_
    by_cases hf : IsFinite w b
    · obtain ⟨text, m, e, h1, -, h2, -⟩ := C09_finite W.fmt hl [] w b hf
      refine .inl ⟨text, fun n dst => ?_, number_plain (numDenotes_isNumber h2)⟩
      have hp := pre_float (contract_long hl) w b (.unsupportedValue w b) dst
      simp only [run, exec, readFloat, hat, withRead, if_true]
      refine hp.trans ?_
      simp only [h1]
      simp [exceptRes, Res.after]
    · refine .inr fun n dst out => ?_
      simp only [run, exec, readFloat, hat, withRead, if_true]
      rw [(C09_nonfinite W.fmt dst w b).mpr hf]
      simp [exceptRes]

/-- C38 for strings: the value is encoded as a JSON string whose content is, between two quotes,
the content the string has without the option. That is the text of the value without the
option if nothing in it is escaped (else it is not: `C38_string_wrong`). -/
theorem C38_string_partial (R : Ready W H M) (S : Stands W H t ca true i p v) (hb : ByKind W.E t ca) (hk : (W.E t).kind = .string)
    (he : bmHas o.flags .noStringEscaping = false) :
    ∃ j body content quoted, Stands W H t ca false j p v ∧ (∀ n path dst, run W H o (n + 1) path j p dst = .ok (dst ++ strToken body)) ∧
      unescape body = some content ∧ (∀ n path dst, run W H o (n + 1) path i p dst = .ok (dst ++ strToken quoted)) ∧
      unescape quoted = some (b! "\"" ++ content ++ b! "\"") ∧ (body = content → unescape quoted = some (strToken body)) := by
  obtain ⟨k, hm⟩ := S.made
  have hi := byKind_basic hb (by rw [hk]; rfl) hm
  rw [hk] at hi
  cases hi
  obtain ⟨s, rfl, hat⟩ := repr_str R.types hk S.holds
  have he' : o.esc.noStringEscaping = false := he
  obtain ⟨out, hesc, ha⟩ := appendEscapedBytes_spec [] s o.esc he'
  have hpre : ∀ dst, appendEscapedBytes dst s o.esc = dst ++ out := by
    intro dst
    have := pre_escaped s o.esc dst
    simp only [ha, Res.after, List.nil_append, Res.ok.injEq] at this
    exact this
  have hu : ∃ c, unescape out = some c := by
    by_cases hc : o.esc.noUTF8Coercion = true
    · exact ⟨s, esc_raw hc hesc⟩
    · obtain ⟨c, -, h⟩ := esc_coerced (by simpa using hc) hesc
      exact ⟨c, h⟩
  obtain ⟨c, hc⟩ := hu
  refine ⟨.string, out, c, b! "\\\"" ++ out ++ b! "\\\"", stands_unquoted S hb (by rw [hk]; rfl), ?_, hc, ?_, unescape_quoted hc, ?_⟩
  · intro n path dst
    simp [run, exec, readStr, hat, withRead, encodeString, hpre, strToken]
  · intro n path dst
    simp [run, exec, readStr, hat, withRead, encodeQuotedString, hpre, strToken]
  · rintro rfl
    rw [unescape_quoted hc]
    simp [strToken]

/-- C38: a type that is not encoded by its kind is not affected by the option. -/
theorem C38_others (S : Stands W H t ca true i p v) (hb : ¬ ByKind W.E t ca) : Stands W H t ca false i p v := by
  obtain ⟨k, hm⟩ := S.made
  refine ⟨⟨k, ?_⟩, S.holds, S.addr⟩
  obtain ⟨k, rfl⟩ := byKind_pos hm
  simp only [newInstruction] at hm ⊢
  cases hg : newGoTypeInstr W.E t with
  | some j => rw [hg] at hm; exact hm
  | none =>
    cases hj : newMarshalerTypeInstr W.E t ca with
    | some j => rw [hg, hj] at hm; exact hm
    | none =>
      refine absurd ?_ hb
      simp only [newGoTypeInstr, Option.map_eq_none_iff] at hg
      have h : ∀ m pm : MethSet, ∀ p : Bool, (if m.appendCtx then some (Instr.marshaler .appendCtx t false)
          else if p && pm.appendCtx then some (.marshaler .appendCtx t true)
          else if m.append then some (.marshaler .append t false)
          else if p && pm.append then some (.marshaler .append t true)
          else if m.json then some (.marshaler .json t false)
          else if p && pm.json then some (.marshaler .json t true)
          else if m.text then some (.marshaler .text t false)
          else if p && pm.text then some (.marshaler .text t true)
          else none) = none → ¬ MethSet.any m ∧ (p = true → ¬ MethSet.any pm) := by
        rintro ⟨a, b, c, d⟩ ⟨a', b', c', d'⟩ p
        cases a <;> cases b <;> cases c <;> cases d <;> cases p <;> simp [MethSet.any] <;>
          cases a' <;> cases b' <;> cases c' <;> cases d' <;> simp
      obtain ⟨h1, h2⟩ := h _ _ _ hj
      exact ⟨hg, h1, fun hc hp => h2 (by simp [hc, hp])⟩

/-! Examples: the fields `S` (a string), `N` (an int), `P` (a pointer to an int) and `D` (a
duration, which the option does not affect). -/

def tagDefs : List TypeDef :=
  [ -- 0: int
    { kind := .int .int, name := b! "int", size := 8 },
    -- 2: string
    { kind := .string, name := b! "string", size := 16 },
    -- 4: time.Duration
    { kind := .int .int64, name := b! "Duration", special := some .duration, size := 8 },
    -- 6: struct { S string ",string"; N int ",string"; P, Q *int ",string"; D time.Duration ",string"; L []int ",string" }
    { kind := .struct [fld (b! "S") 2 0 (b! ",string"), fld (b! "N") 0 16 (b! ",string"), fld (b! "P") 1 24 (b! ",string"), fld (b! "Q") 1 32 (b! ",string"),
        fld (b! "D") 4 40 (b! ",string"), fld (b! "L") 8 48 (b! ",string")], size := 72 },
    -- 8: []int
    { kind := .slice 0, size := 24 } ]

theorem tag_ok : univOk tagDefs = true := by decide +kernel

def tagCells : List (Addr × Cell) :=
  [(100, .str (b! "hé")), (116, .int (.int (-7))), (124, .word 200), (132, .word 0), (140, .int (.int64 5)), (148, .slice 200 1), (200, .int (.int 9))]

example : marshal (univW tagDefs) (univHeap tagDefs shopMeth tagCells) 9 (some (6, 100)) =
    .ret (some (b! "{\"S\":\"\\\"hé\\\"\",\"N\":\"-7\",\"P\":\"9\",\"Q\":null,\"D\":5,\"L\":[9]}")) none := by decide +kernel

theorem tag_at {t : TId} {w : Addr} {v : Val} (n : Nat)
    (h : (checkE (univE tagDefs) (isInlined (univE tagDefs) 10) (univHeap tagDefs shopMeth tagCells).mem n (some (t, w)) (.iface t v) &&
      !isInlined (univE tagDefs) 10 t) = true) : Repr (univW tagDefs).E (univHeap tagDefs shopMeth tagCells).mem t (.heap w) v := by
  rw [Bool.and_eq_true] at h
  obtain ⟨rank, hr, hlt⟩ := univ_nest tag_ok
  have h1 : ReprE (univE tagDefs) (univHeap tagDefs shopMeth tagCells).mem _ _ := univ_repr n h.1
  cases h1 with
  | direct hd _ => have := (isInlined_iff hr 10 t (hlt t)).mpr hd; rw [this] at h; simp at h
  | indirect _ h => exact h

/-- The hypotheses of `C38_scalar`, `C38_string_partial` and `C38_others`, at the fields `N`, `S` and `D`. -/
example : (∃ i p, Stands (univW tagDefs) (univHeap tagDefs shopMeth tagCells) 0 false true i p (.int (.int (-7)))) ∧ ByKind (univW tagDefs).E 0 false ∧
    (∃ i p, Stands (univW tagDefs) (univHeap tagDefs shopMeth tagCells) 2 false true i p (.str (b! "hé"))) ∧ ByKind (univW tagDefs).E 2 false ∧
    (∃ i p, Stands (univW tagDefs) (univHeap tagDefs shopMeth tagCells) 4 false true i p (.int (.int64 5))) ∧ ¬ ByKind (univW tagDefs).E 4 false ∧
    Ready (univW tagDefs) (univHeap tagDefs shopMeth tagCells) (univM shopMeth) :=
  ⟨⟨.quoted (.int .int), .heap 116, ⟨9, by decide +kernel⟩, tag_at 3 (by decide +kernel), fun h => nomatch h⟩, byKind_of (by decide +kernel),
    ⟨.quotedString, .heap 100, ⟨9, by decide +kernel⟩, tag_at 3 (by decide +kernel), fun h => nomatch h⟩, byKind_of (by decide +kernel),
    ⟨.goType .duration, .heap 140, ⟨9, by decide +kernel⟩, tag_at 3 (by decide +kernel), fun h => nomatch h⟩, (fun h => nomatch h.special),
    univ_ready tag_ok shopMeth tagCells⟩

end Jettison.Props
