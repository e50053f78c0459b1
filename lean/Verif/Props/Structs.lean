import Verif.Proofs.Kinds
import Verif.Props.Shop
import Verif.Props.Api

/-! # The object of a struct value (C20, C21, C22) -/

namespace Jettison.Props
open Jettison Jettison.Spec Jettison.Model Jettison.Proofs

variable {W : World} {H : Heap} {M : MethV} {o : EncOpts}

theorem nullEnd_iff (b : Bytes) : nullEnd b = true ↔ ∃ pre, b = pre ++ b! "null" := by
  simp only [nullEnd, Bool.and_eq_true, decide_eq_true_eq]
  constructor
  · rintro ⟨_, h2⟩
    exact ⟨b.take (b.length - 4), by rw [← h2]; exact (List.take_append_drop ..).symm⟩
  · rintro ⟨pre, rfl⟩
    simp

theorem fieldKey_keyOf (hU : TablesOk W.U.isLetter W.U.isDigit) {name : Bytes} (h : TagName W.U.isLetter W.U.isDigit name) :
    KeyOf name (fieldKey o name) := by
  have hp := name_plain hU h
  simp only [fieldKey]
  split
  · exact ⟨name, by simp [keyNonEsc, strToken], unescape_iff_body.2 (plain_body hp)⟩
  · exact ⟨htmlEscape name, by simp [keyEscHTML, strToken], unescape_iff_body.2 (by simpa [htmlEscape] using htmlEscape_body 0 _ hp)⟩

theorem chosen_name (hg : GoNames W.U.isLetter W.U.isDigit W.E) {t : TId} {m : MField} (h : ChosenField W.U.isLetter W.U.isDigit W.E t m) :
    TagName W.U.isLetter W.U.isDigit m.name := by
  obtain ⟨p, u, i, r, tg, _, hp, _⟩ := h
  obtain ⟨fs, hf, hi⟩ := hp.decl
  rcases hp.member.2.2 with ⟨_, opts, h1, h2⟩ | ⟨_, _, h3⟩
  · exact h2
  · rw [h3]; exact goIdent_tagName (hg u fs m.decl hf (List.mem_of_getElem? hi))

theorem basicOrPtr_deref {E : Env} {t : TId} (h : BasicOrPtr E t) : isBasicK (E (derefOnce E t)).kind = true := by
  rcases h with h | ⟨e, he, _, h⟩
  · have : derefOnce E t = t := by
      unfold derefOnce
      split
      · next e he => rw [he] at h; simp [isBasicK, isInteger] at h
      · rfl
    rw [this]; exact h
  · simp only [derefOnce, he]; exact h

/-- The output of a struct encoded by its kind, in all cases: a first member that is dropped leaves
its comma behind. -/
theorem struct_object (R : Ready W H M) (hl : FormatContract W.fmt) (hh : HonestAppend H.meth)
    {t : TId} {ca q : Bool} {i : Instr} {p : Loc} {v : Val}
    (S : Stands W H t ca q i p v) (hb : ByKind W.E t ca) (hs : IsStruct W.E t) {n : Nat} {path : Path} {dst out : Bytes}
    (h : run W H o (n + 1) path i p dst = .ok out) :
    ∃ (l : List MField) (ms : List (MField × Bytes)), MembersOf W.U.isLetter W.U.isDigit W.E t l ∧
      (ms.map Prod.fst).Sublist l ∧ (∀ m ∈ l, m ∈ ms.map Prod.fst ↔ ¬ LeftOut o v m) ∧
      (∀ m b, (m, b) ∈ ms → ∃ x j p' q' path', FieldAt v m.path x ∧ Stands W H m.decl.typ ca q' j p' x ∧
        (q' = true ↔ HasOpt m.decl (b! "string") ∧ BasicOrPtr W.E m.decl.typ) ∧ run W H o n path' j p' [] = .ok b) ∧
      ∃ (kept : List (MField × Bytes)) (c : Bytes), kept.Sublist ms ∧ (∀ x ∈ ms, x ∈ kept ↔ ¬ NullDropped W.E x.1 x.2) ∧
        ((c = [] ∧ ∀ x, ms.head? = some x → NullDropped W.E x.1 x.2 → kept = []) ∨
          (c = b! "," ∧ kept ≠ [] ∧ ∃ x, ms.head? = some x ∧ NullDropped W.E x.1 x.2)) ∧
        out = dst ++ (b! "{" ++ c ++ commas (kept.map fun x => fieldKey o x.1.name ++ x.2) ++ b! "}") := by
  obtain ⟨fs, hk⟩ := hs
  obtain ⟨k, hmade⟩ := S.made
  have hi := byKind_struct hb hk hmade
  subst hi
  simp only [run, exec] at h
  split at h
  · next h0 =>
    simp only [HasFields] at hk
    rw [hk] at h0
    simp only [fieldsOfK, List.length_eq_zero_iff] at h0
    subst h0
    have hm0 := membersOf_empty (letter := W.U.isLetter) (digit := W.U.isDigit) hk
    refine ⟨[], [], hm0, by simp, by simp, by simp, [], [], by simp, by simp, .inl ⟨rfl, by simp⟩, ?_⟩
    simp only [Res.ok.injEq] at h
    rw [← h]; simp [commas]
  · split at h
    · simp at h
    · next flds hflds =>
      obtain ⟨fl, hsf, hmap, hok⟩ := structFieldsInstr_ok hflds
      obtain ⟨hfld, hnew⟩ := mapM_fld hmap
      obtain ⟨g, hmem, hbeh⟩ := members_of R.tab R.sort (R.apart t) hsf
      rw [structLoop_G] at h
      have hpre : ∀ path i p, Pre (run W H o n path i p) := pre_run (contract_long hl) hh n
      obtain ⟨es, hem, hout⟩ := (structG_ok o (fieldLoc H.mem o · p) hpre path flds 0 true dst out).mp h
      obtain ⟨hfst, hall⟩ := emits_fields hem
      have hst : IsStruct W.E t := ⟨fs, hk⟩
      have hroute := structFields_route R.tab (R.apart t) R.sort hsf
      have hspec : ∀ f ∈ flds, (fieldLoc H.mem o f p = some none ∧ LeftOut o v (g f.fld)) ∨ ∃ l' x, fieldLoc H.mem o f p = some (some l') ∧
          ¬ LeftOut o v (g f.fld) ∧ FieldAt v (g f.fld).path x ∧ Repr W.E H.mem (g f.fld).decl.typ l' x ∧ (InHeap p → InHeap l') := by
        intro f hf
        have hfl : f.fld ∈ fl := by rw [← hfld]; exact List.mem_map_of_mem hf
        obtain ⟨hb', u, i, hp⟩ := hbeh f.fld hfl
        exact fieldLoc_spec R S.holds hst hb' (hnew f hf) (hroute _ hfl) hp
      let tr : FInstr × Loc × Bytes → MField × Bytes := fun e => (g e.1.fld, e.2.2)
      have htr : (es.map tr).map Prod.fst = (es.map Prod.fst).map (fun f => g f.fld) := by
        simp [tr, Function.comp_def]
      have hlmap : fl.map g = flds.map (fun f => g f.fld) := by rw [← hfld]; simp [Function.comp_def]
      have hdrop : ∀ e ∈ es, dropNull e = true ↔ NullDropped W.E (g e.1.fld) e.2.2 := by
        intro e he
        obtain ⟨hef, -, -⟩ := hall e he
        obtain ⟨ftyp, h1, h2, h3, h4, -, -⟩ := newFieldInstr_inv (hnew e.1 hef)
        have hfl : e.1.fld ∈ fl := by rw [← hfld]; exact List.mem_map_of_mem hef
        obtain ⟨hb', u, i, hp⟩ := hbeh _ hfl
        have hty : (g e.1.fld).decl.typ = ftyp := by have := promoted_type hst hp; rw [h1] at this; simpa using this.symm
        simp only [dropNull, NullDropped, Bool.and_eq_true, h4, ← hb'.omitNil, HasMarshalJSON, hty, nullEnd_iff, Bool.or_eq_true, and_assoc]
      refine ⟨fl.map g, es.map tr, hmem, ?_, ?_, ?_, ?_⟩
      · rw [htr, hlmap, hfst]
        exact List.Sublist.map _ List.filter_sublist
      · intro m hm
        rw [htr, hfst, List.mem_map]
        rw [hlmap, List.mem_map] at hm
        constructor
        · rintro ⟨f, hf, rfl⟩
          obtain ⟨hf1, hf2⟩ := List.mem_filter.mp hf
          rcases hspec f hf1 with ⟨e, _⟩ | ⟨_, _, _, hno, _⟩
          · rw [e] at hf2; simp at hf2
          · exact hno
        · intro hno
          obtain ⟨f, hf, rfl⟩ := hm
          refine ⟨f, List.mem_filter.mpr ⟨hf, ?_⟩, rfl⟩
          rcases hspec f hf with ⟨_, hlo⟩ | ⟨_, _, e, _⟩
          · exact absurd hlo hno
          · rw [e]
      · intro m b hmb
        obtain ⟨e, he, heq⟩ := List.mem_map.mp hmb
        simp only [tr, Prod.mk.injEq] at heq
        obtain ⟨rfl, rfl⟩ := heq
        obtain ⟨hef, hget, j, htxt⟩ := hall e he
        have hfl : e.1.fld ∈ fl := by rw [← hfld]; exact List.mem_map_of_mem hef
        obtain ⟨hb', u, i, hp⟩ := hbeh _ hfl
        obtain ⟨ftyp, h1, h2, h3, h4, h5, h6⟩ := newFieldInstr_inv (hnew e.1 hef)
        have hty : (g e.1.fld).decl.typ = ftyp := by have := promoted_type hst hp; rw [h1] at this; simpa using this.symm
        rcases hspec e.1 hef with ⟨e', _⟩ | ⟨l', x, e', _, hat, hrep, hheap⟩
        · rw [e'] at hget; simp at hget
        · rw [e'] at hget
          simp only [Option.some.injEq] at hget
          subst hget
          refine ⟨x, e.1.instr, _, e.1.fld.quoted && isBasicK (W.E (derefOnce W.E ftyp)).kind, _, hat, ⟨⟨_, by rw [hty]; exact h6⟩, hrep, ?_⟩, ?_, htxt⟩
          · intro hca
            right
            have : InHeap p := by
              rcases S.addr hca with hp' | hp'
              · simp only [HasFields] at hk; rw [hk] at hp'; simp [isPtrK] at hp'
              · exact hp'
            exact hheap this
          · rw [Bool.and_eq_true, hb'.quoted, ← hty]
            exact ⟨fun h => h.1, fun h => ⟨h, basicOrPtr_deref h.2⟩⟩
      · obtain ⟨c, hc1, hc2⟩ := objText_lead o es
        refine ⟨(es.filter (!dropNull ·)).map tr, c, List.Sublist.map _ List.filter_sublist, ?_, ?_, ?_⟩
        · intro x hx
          obtain ⟨e, he, rfl⟩ := List.mem_map.mp hx
          rw [List.mem_map]
          constructor
          · rintro ⟨e', he', heq⟩
            obtain ⟨h1, h2⟩ := List.mem_filter.mp he'
            rw [← heq]
            intro hd
            rw [(hdrop e' h1).mpr hd] at h2
            simp at h2
          · intro hd
            refine ⟨e, List.mem_filter.mpr ⟨he, ?_⟩, rfl⟩
            cases hde : dropNull e with
            | false => rfl
            | true => exact absurd ((hdrop e he).mp hde) hd
        · rcases hc2 with ⟨rfl, hc2⟩ | ⟨rfl, hc2, e, hc3, hc4⟩
          · refine .inl ⟨rfl, fun x hx hd => ?_⟩
            rw [List.head?_map, Option.map_eq_some_iff] at hx
            obtain ⟨e, he, rfl⟩ := hx
            rw [hc2 e he ((hdrop e (List.mem_of_mem_head? he)).mpr hd)]
            rfl
          · refine .inr ⟨rfl, by simpa using hc2, tr e, by rw [List.head?_map, hc3]; rfl, (hdrop e (List.mem_of_mem_head? hc3)).mp hc4⟩
        · rw [hout]
          simp only [if_true]
          rw [hc1]
          simp only [List.map_map]
          congr 4
          refine List.map_congr_left (fun e he => ?_)
          have he' := (List.mem_filter.mp he).1
          obtain ⟨hef, -, -⟩ := hall e he'
          have hfl : e.1.fld ∈ fl := by rw [← hfld]; exact List.mem_map_of_mem hef
          obtain ⟨hb', -⟩ := hbeh _ hfl
          simp only [memberText, tr, Function.comp_def, hb'.name]

/-- C20, C21, C22: the output of a struct encoded by its kind. There is the list `l` of
members of the type (C19, C49), and `ms` lists, in the same order, those that the
options and the value do not leave out, each with the text that encoding the value of
that very field gives. Those whose text is dropped (`NullDropped`) aside, the output is
these members between braces, each under the key of its JSON name, provided the first
one is not dropped or all are (finding 1 tells what happens otherwise). -/
theorem C20_C21_C22_object_partial (R : Ready W H M) (hl : FormatContract W.fmt) (hh : HonestAppend H.meth)
    (hn : GoNames W.U.isLetter W.U.isDigit W.E) {t : TId} {ca q : Bool} {i : Instr} {p : Loc} {v : Val}
    (S : Stands W H t ca q i p v) (hb : ByKind W.E t ca) (hs : IsStruct W.E t) {n : Nat} {path : Path} {dst out : Bytes}
    (h : run W H o (n + 1) path i p dst = .ok out) :
    ∃ (l : List MField) (ms : List (MField × Bytes)), MembersOf W.U.isLetter W.U.isDigit W.E t l ∧
      (ms.map Prod.fst).Sublist l ∧ (∀ m ∈ l, m ∈ ms.map Prod.fst ↔ ¬ LeftOut o v m) ∧
      (∀ m b, (m, b) ∈ ms → ∃ x j p' q' path', FieldAt v m.path x ∧ Stands W H m.decl.typ ca q' j p' x ∧
        (q' = true ↔ HasOpt m.decl (b! "string") ∧ BasicOrPtr W.E m.decl.typ) ∧ run W H o n path' j p' [] = .ok b) ∧
      ((∀ x, ms.head? = some x → NullDropped W.E x.1 x.2 → ∀ y ∈ ms, NullDropped W.E y.1 y.2) →
        ∃ (kept : List (MField × Bytes)) (key : Bytes → Bytes), kept.Sublist ms ∧ (∀ x ∈ ms, x ∈ kept ↔ ¬ NullDropped W.E x.1 x.2) ∧
          (∀ m ∈ l, KeyOf m.name (key m.name)) ∧
          out = dst ++ (b! "{" ++ commas (kept.map fun x => key x.1.name ++ x.2) ++ b! "}")) := by
  obtain ⟨l, ms, h1, h2, h3, h4, kept, c, h5, h6, h7, h8⟩ := struct_object R hl hh S hb hs h
  refine ⟨l, ms, h1, h2, h3, h4, fun hhead => ⟨kept, fieldKey o, h5, h6, fun m hm => fieldKey_keyOf R.tab (chosen_name hn ((h1.2 m).mp hm)), ?_⟩⟩
  rcases h7 with ⟨rfl, -⟩ | ⟨-, h9, x, h10, h11⟩
  · rw [h8]; simp
  · cases kept with
    | nil => exact absurd rfl h9
    | cons k ks =>
      have hk := h5.subset (List.mem_cons_self ..)
      exact absurd (hhead x h10 h11 k hk) ((h6 k hk).mp (List.mem_cons_self ..))

/-! The hypotheses hold of `Full` in the program of Props/Shop.lean: seven declared fields,
one an embedded pointer, one whose text is `null` and is dropped. -/

/-- Encoding by kind, as a test. -/
theorem byKind_of {E : Env} {t : TId} {ca : Bool} (h : ((E t).special == none && !anyMeth (E t).meths &&
    (!ca || isPtrK (E t).kind || !anyMeth (E t).pmeths)) = true) : ByKind E t ca := by
  simp only [Bool.and_eq_true, Bool.or_eq_true, beq_iff_eq, Bool.not_eq_eq_eq_not, Bool.not_true] at h
  obtain ⟨⟨h1, h2⟩, h3⟩ := h
  refine ⟨h1, fun h => ?_, fun hc hp h => ?_⟩
  · rw [(anyMeth_iff _).mpr h] at h2; simp at h2
  · rw [(anyMeth_iff _).mpr h, hc, hp] at h3; simp at h3

example : ∃ i p, Ready shopW (shopH shopCells) (univM shopMeth) ∧ FormatContract shopW.fmt ∧ HonestAppend (shopH shopCells).meth ∧
    GoNames shopW.U.isLetter shopW.U.isDigit shopW.E ∧ Stands shopW (shopH shopCells) 42 false false i p fullV ∧
    ByKind shopW.E 42 false ∧ IsStruct shopW.E 42 ∧
    run shopW (shopH shopCells) defaultEncOpts 9 [] i p (b! "x") =
      .ok (b! "x{\"id\":9,\"when\":1000000000,\"Name\":\"base\",\"L\":[[1,2],[1,2]],\"M\":{\"k\":4},\"A\":[1,2,3],\"Any\":6,\"P\":{\"N\":5}}") := by
  refine ⟨.struct 42 false, .heap 100, shop_ready _, toyFmt_contract, shop_honest _, shop_names,
    ⟨⟨10, by decide +kernel⟩, shop_at 6 (by decide +kernel), fun h => .inl h⟩,
    byKind_of (by decide +kernel), ⟨_, rfl⟩, by decide +kernel⟩

end Jettison.Props
