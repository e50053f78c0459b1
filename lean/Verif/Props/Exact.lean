import Verif.Props.StringIff
import Verif.Props.Structs
import Verif.Props.Methods

/-!
# Exactly when C21, C25 and C46 hold

The full statements of these properties are false (findings 1, 2 and 4). Here are the
theorems that say, for all values, on which they are true and what happens on the others.
-/

namespace Jettison.Props
open Jettison Jettison.Spec Jettison.Model Jettison.Proofs

variable {W : World} {H : Heap} {M : MethV} {o : EncOpts} {t : TId} {ca q : Bool} {i : Instr} {p : Loc} {v : Val}

/-! ## C25 -/

/-- C25, for all slices: a nil slice is `[]` if and only if `NilSliceEmpty` is on and the
elements are not bytes, and `null` otherwise; an empty one is `[]`, or the empty string if
the elements are bytes. -/
theorem C25_slice_exact (R : Ready W H M) (S : Stands W H t ca q i p v) (hb : ByKind W.E t ca) {e : TId} (hk : (W.E t).kind = .slice e)
    (n : Nat) (path : Path) (dst : Bytes) :
    (v = .nil → ∃ out, run W H o (n + 1) path i p dst = .ok (dst ++ out) ∧ (out = b! "[]" ∨ out = b! "null") ∧
      (out = b! "[]" ↔ bmHas o.flags .nilSliceEmpty = true ∧ ¬ ByteElem W.E e)) ∧
    (v = .slice [] → ∃ out, run W H o (n + 1) path i p dst = .ok (dst ++ out) ∧ (out = b! "[]" ∨ out = b! "\"\"") ∧
      (out = b! "\"\"" ↔ ByteElem W.E e)) := by
  by_cases he : ByteElem W.E e
  · constructor
    · rintro rfl
      exact ⟨b! "null", (C37_base64 R S hb hk he n path dst).1 rfl, .inr rfl, by simp [he]⟩
    · rintro rfl
      rw [stands_runV R S]
      obtain ⟨k, hm⟩ := S.made
      have := byKind_byteSlice hb hk ((isByteElem_iff _ _).mpr he) hm
      subst this
      refine ⟨b! "\"\"", ?_, .inr rfl, by simp [he]⟩
      by_cases hf : bmHas o.flags .rawByteSlice = true
      · simp [runV, execV, byteSliceOf, bytesOf, withRead, encodeByteSlice, hf, appendEscapedBytes, escLoop]
      · simp [runV, execV, byteSliceOf, bytesOf, withRead, encodeByteSlice, hf, stdEncode]
  · obtain ⟨h1, h2⟩ := C25_slice_partial (o := o) R S hb hk he n path dst
    constructor
    · intro h
      refine ⟨_, h1 h, ?_, ?_⟩
      · split <;> simp
      · split <;> simp_all
    · exact fun h => ⟨_, h2 h, .inl rfl, by simp [he]⟩

/-! ## C46 -/

/-- C46 for `MarshalText`, exactly: the text `b` that the method returns becomes a JSON string
with that text if and only if there is no quote, backslash or control character in it. -/
theorem C46_text_iff (R : Ready W H M) (S : Stands W H t ca q i p v) (hs : (W.E t).special = none) (hm : Picks W.E t ca .text)
    {rt : TId} {x : Val} {u : TId} (hr : Receives W.E W.ptrTo t .text v rt x u) (n : Nat) (path : Path) (dst : Bytes) {b : Bytes}
    (h : M path .text none rt x [] = .ok b) :
    ∃ out, run W H o (n + 1) path i p dst = .ok (dst ++ out) ∧
      (JsonText (.str b) out ↔ ∀ c ∈ b, 0x20 ≤ c.toNat ∧ c ≠ c! '"' ∧ c ≠ c! '\\') ∧
      ∀ c, JsonText (.str c) out ↔ unescape b = some c := by
  have e : strToken b = b! "\"" ++ b ++ b! "\"" := by simp [strToken]
  refine ⟨strToken b, ?_, ?_, ?_⟩
  · rw [meth_call R S hs hm hr]
    simp [callMeth, h, strToken]
  · rw [e, jsonText_quoted, unescape_self]; rfl
  · intro c
    rw [e, jsonText_quoted]

/-! ## C21 -/

theorem comma_first {j : Json} {s : Bytes} : ¬ JsonText j (b! "{," ++ s) := by
  rintro ⟨w1, x, w2, h1, h2, hg, he⟩
  have hb : ¬ IsWs (c! '{') := by decide +kernel
  have hc : ¬ IsWs (c! ',') := by decide +kernel
  have e1 : w1 = [] := by
    cases w1 with
    | nil => rfl
    | cons y w =>
      simp only [List.cons_append, List.nil_append, List.cons.injEq] at he
      exact absurd (he.1 ▸ h1 y (by simp)) hb
  subst e1
  have hw : ∀ (w rest r : Bytes) (c : UInt8), Ws w → c ≠ c! ',' → w ++ c :: rest = c! ',' :: r → False := by
    intro w rest r c hw hne heq
    cases w with
    | nil => simp only [List.nil_append, List.cons.injEq] at heq; exact hne heq.1
    | cons y w => simp only [List.cons_append, List.cons.injEq] at heq; exact hc (heq.1 ▸ hw y (by simp))
  cases hg with
  | null | true | false | str | arr0 | arr => simp [strToken] at he
  | num _ hn =>
    cases x with
    | nil => exact absurd (h2 (c! '{') (by simp only [List.nil_append] at he; rw [← he]; simp)) hb
    | cons y x =>
      simp only [List.cons_append, List.nil_append, List.cons.injEq] at he
      exact absurd (he.1 ▸ number_bytes hn y (by simp)) (by decide +kernel)
  | obj0 w hw' =>
    simp at he
    exact hw w _ _ (c! '}') hw' (by decide) he.symm
  | obj ms x hx =>
    simp at he
    cases hx with
    | member a kb b c d e k j ha => simp [strToken] at he; exact hw a _ _ (c! '"') ha (by decide) he.symm
    | memberCons a kb b c d e f k j l ha => simp [strToken] at he; exact hw a _ _ (c! '"') ha (by decide) he.symm

/-- C20, C21, C22, exactly: as `C20_C21_C22_object_partial`, and for the other values: if the
first member that the options and the value do not leave out is dropped because its text is
`null`, and a later one is not, the text is the same with a comma after the opening brace,
and no JSON text. -/
theorem C21_object_exact (R : Ready W H M) (hl : FormatContract W.fmt) (hh : HonestAppend H.meth)
    (hn : GoNames W.U.isLetter W.U.isDigit W.E) (S : Stands W H t ca q i p v) (hb : ByKind W.E t ca) (hs : IsStruct W.E t)
    {n : Nat} {path : Path} {dst out : Bytes} (h : run W H o (n + 1) path i p dst = .ok out) :
    ∃ (l : List MField) (ms kept : List (MField × Bytes)) (key : Bytes → Bytes) (obj : Bytes), MembersOf W.U.isLetter W.U.isDigit W.E t l ∧
      (ms.map Prod.fst).Sublist l ∧ (∀ m ∈ l, m ∈ ms.map Prod.fst ↔ ¬ LeftOut o v m) ∧
      (∀ m b, (m, b) ∈ ms → ∃ x j p' q' path', FieldAt v m.path x ∧ Stands W H m.decl.typ ca q' j p' x ∧
        (q' = true ↔ HasOpt m.decl (b! "string") ∧ BasicOrPtr W.E m.decl.typ) ∧ run W H o n path' j p' [] = .ok b) ∧
      kept.Sublist ms ∧ (∀ x ∈ ms, x ∈ kept ↔ ¬ NullDropped W.E x.1 x.2) ∧ (∀ m ∈ l, KeyOf m.name (key m.name)) ∧ out = dst ++ obj ∧
      (obj = b! "{" ++ commas (kept.map fun x => key x.1.name ++ x.2) ++ b! "}" ↔
        ∀ x, ms.head? = some x → NullDropped W.E x.1 x.2 → ∀ y ∈ ms, NullDropped W.E y.1 y.2) ∧
      ((∃ x, ms.head? = some x ∧ NullDropped W.E x.1 x.2 ∧ ∃ y ∈ ms, ¬ NullDropped W.E y.1 y.2) →
        obj = b! "{," ++ commas (kept.map fun x => key x.1.name ++ x.2) ++ b! "}" ∧ ∀ j, ¬ JsonText j obj) := by
  obtain ⟨l, ms, h1, h2, h3, h4, kept, c, h5, h6, h7, h8⟩ := struct_object R hl hh S hb hs h
  refine ⟨l, ms, kept, fieldKey o, _, h1, h2, h3, h4, h5, h6, fun m hm => fieldKey_keyOf R.tab (chosen_name hn ((h1.2 m).mp hm)), h8, ?_, ?_⟩
  · rcases h7 with ⟨rfl, h9⟩ | ⟨rfl, h9, x, h10, h11⟩
    · refine ⟨fun _ x hx hd y hy => ?_, fun _ => by simp⟩
      have hk := h9 x hx hd
      refine Classical.byContradiction fun hc => ?_
      have := (h6 y hy).mpr hc
      rw [hk] at this
      cases this
    · constructor
      · intro he
        have := congrArg List.length he
        simp only [List.length_append, List.length_cons, List.length_nil] at this
        omega
      · intro hall
        obtain ⟨k, hk⟩ := List.exists_mem_of_ne_nil kept h9
        have hm := h5.subset hk
        exact absurd (hall x h10 h11 k hm) ((h6 k hm).mp hk)
  · rintro ⟨x, hx, hd, y, hy, hny⟩
    rcases h7 with ⟨rfl, h9⟩ | ⟨rfl, h9, -⟩
    · have := (h6 y hy).mpr hny
      rw [h9 x hx hd] at this
      cases this
    · refine ⟨by simp, fun j => ?_⟩
      have := comma_first (j := j) (s := commas (kept.map fun x => fieldKey o x.1.name ++ x.2) ++ b! "}")
      simpa using this

/-! ## The hypotheses -/

theorem wrong_at {cells : List (Addr × Cell)} {t : TId} {w : Addr} {v : Val} (n : Nat)
    (h : (checkE (univE wrongDefs) (isInlined (univE wrongDefs) 10) (wrongH cells).mem n (some (t, w)) (.iface t v) &&
      !isInlined (univE wrongDefs) 10 t) = true) : Repr wrongW.E (wrongH cells).mem t (.heap w) v := by
  rw [Bool.and_eq_true] at h
  obtain ⟨rank, hr, hlt⟩ := univ_nest wrong_ok
  have h1 : ReprE (univE wrongDefs) (wrongH cells).mem _ _ := univ_repr n h.1
  cases h1 with
  | direct hd _ => have := (isInlined_iff hr 10 t (hlt t)).mpr hd; rw [this] at h; simp at h
  | indirect _ h => exact h

/-- Of `C25_slice_exact`: a nil `[]uint8`. -/
example : Stands wrongW (wrongH [(100, .slice 0 0)]) 16 false false .byteSlice (.heap 100) .nil ∧ ByKind wrongW.E 16 false ∧
    (wrongW.E 16).kind = .slice 18 ∧ ByteElem wrongW.E 18 :=
  ⟨⟨⟨9, by decide +kernel⟩, .nilSlice (e := 18) (by decide +kernel) (by decide +kernel), fun h => nomatch h⟩, byKind_of (by decide +kernel), by decide +kernel,
    (by unfold ByteElem; decide +kernel)⟩

/-- Of `C46_text_iff`: a text with a quote, which becomes no JSON text of it. -/
example : ∃ out, run wrongW (wrongH [(100, .str (b! "a\"b"))]) defaultEncOpts 3 [] (.marshaler .text 8 false) (.heap 100) [] = .ok ([] ++ out) ∧
    ¬ JsonText (.str (b! "a\"b")) out := by
  have S : Stands wrongW (wrongH [(100, .str (b! "a\"b"))]) 8 false false (.marshaler .text 8 false) (.heap 100) (.str (b! "a\"b")) :=
    ⟨⟨9, by decide +kernel⟩, .str (by decide +kernel) (by decide +kernel), fun h => nomatch h⟩
  obtain ⟨out, h1, h2, -⟩ := C46_text_iff (o := defaultEncOpts) (wrong_ready _) S rfl (by decide +kernel)
    (.own (by decide +kernel) (by decide +kernel) (fun _ => by simp)) 2 [] [] (b := b! "a\"b") (by decide +kernel)
  exact ⟨out, h1, fun h => absurd (h2.mp h) (by decide +kernel)⟩

/-- Of `C21_object_exact`: the struct of finding 1. -/
example : FormatContract wrongW.fmt ∧ HonestAppend (wrongH [(100, .str (b! "x")), (116, .int (.int 1))]).meth ∧
    GoNames wrongW.U.isLetter wrongW.U.isDigit wrongW.E ∧
    Stands wrongW (wrongH [(100, .str (b! "x")), (116, .int (.int 1))]) 6 false false (.struct 6 false) (.heap 100) (.struct [.str (b! "x"), .int (.int 1)]) ∧
    ByKind wrongW.E 6 false ∧ IsStruct wrongW.E 6 ∧
    run wrongW (wrongH [(100, .str (b! "x")), (116, .int (.int 1))]) defaultEncOpts 4 [] (.struct 6 false) (.heap 100) [] = .ok (b! "{,\"b\":1}") := by
  refine ⟨toyFmt_contract, wrong_honest _, univ_names (by decide +kernel), ⟨⟨9, by decide +kernel⟩, ?_, fun h => nomatch h⟩, byKind_of (by decide +kernel), ⟨_, rfl⟩, by decide +kernel⟩
  exact wrong_at 5 (by decide +kernel)

end Jettison.Props
