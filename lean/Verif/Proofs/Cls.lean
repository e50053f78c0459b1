import Verif.Proofs.Tags
import Verif.Proofs.Filter

/-! # How one struct field is classified -/

namespace Jettison.Proofs
open Jettison Jettison.Model Jettison.Spec

/-- What `scanFields` does with a field. -/
inductive Cls
  | skip
  | leaf (name : Bytes) (tagged : Bool)
  | embed (v : TId) (ptr : Bool)
  deriving DecidableEq

/-- The decisions of one iteration of `scanFields`. -/
def cls (E : Env) (U : UnicodeTab) (sf : FieldDef) : Cls :=
  if !shouldEncodeField E sf then .skip
  else if sf.tag = b! "-" then .skip
  else
    let name := (parseTag sf.tag).1
    let name := if isValidFieldName U name then name else []
    let typ := scanTyp E sf
    if name ≠ [] || !sf.anonymous || !isStructK (E typ).kind then
      .leaf (if name = [] then sf.name else name) (decide (name ≠ []))
    else .embed typ (isPtrK (E sf.typ).kind)

theorem scanField_eq (E : Env) (U : UnicodeTab) (grow : Grow) (f : Pend) (cnt : TypeCount) (i : Nat)
    (sf : FieldDef) (st : ScanSt) :
    scanField E U grow f cnt i sf st =
      match cls E U sf with
      | .skip => st
      | .leaf name tagged =>
        let nf := mkFld E (st.heap.read f.seqs) (f.index ++ [i]) sf name tagged (parseTag sf.tag).2
        { st with flds := st.flds ++ (if cnt f.typ > 1 then [nf, nf] else [nf]) }
      | .embed v ptr =>
        if st.ncnt v = 0 then
          { st with
            ncnt := st.ncnt.incr v
            heap := (st.heap.append grow f.seqs ⟨sf.offset, ptr⟩).1
            next := st.next ++ [⟨v, f.index ++ [i], (st.heap.append grow f.seqs ⟨sf.offset, ptr⟩).2⟩] }
        else { st with ncnt := st.ncnt.incr v } := by
  simp only [scanField, cls]
  by_cases h1 : (!shouldEncodeField E sf) = true
  · simp [h1]
  · simp only [h1, Bool.false_eq_true, if_false]
    by_cases h2 : sf.tag = b! "-"
    · simp [h2]
    · simp only [h2, if_false]
      generalize (if isValidFieldName U (parseTag sf.tag).fst = true then (parseTag sf.tag).fst else []) = nm
      generalize hc : (decide (nm ≠ []) || !sf.anonymous || !isStructK (E (scanTyp E sf)).kind) = c
      cases c with
      | true =>
        simp only [if_true]
        by_cases hd : cnt f.typ > 1 <;> simp [hd]
      | false =>
        simp only [Bool.false_eq_true, if_false]
        simp [TypeCount.incr]

theorem isStructK_iff (E : Env) (t : TId) : isStructK (E t).kind = true ↔ IsStruct E t := by
  unfold IsStruct HasFields
  cases (E t).kind <;> simp [isStructK]

theorem isPtrK_iff (k : Kind) : isPtrK k = true ↔ ∃ e, k = .ptr e := by
  cases k <;> simp [isPtrK]

theorem deref_struct (E : Env) (t : TId) : isStructK (E (derefOnce E t)).kind = true ↔ StructOrPtr E t := by
  rw [isStructK_iff]
  unfold StructOrPtr derefOnce
  cases h : (E t).kind with
  | ptr e =>
    simp only
    constructor
    · intro h'; exact Or.inr ⟨e, rfl, h'⟩
    · rintro (⟨fs, hf⟩ | ⟨e', he, hs⟩)
      · unfold HasFields at hf; rw [h] at hf; cases hf
      · cases he; exact hs
  | _ =>
    simp only
    constructor
    · exact Or.inl
    · rintro (h' | ⟨e', he, hs⟩)
      · exact h'
      · cases he

theorem shouldEncode_iff (E : Env) (sf : FieldDef) :
    shouldEncodeField E sf = true ↔ sf.exported = true ∨ (sf.anonymous = true ∧ StructOrPtr E sf.typ) := by
  unfold shouldEncodeField
  rw [← deref_struct]
  cases sf.anonymous <;> cases sf.exported <;> simp

/-- The tag gives the name that the code extracts, or none. -/
theorem tagGives_iff {U : UnicodeTab} (hU : TablesOk U.isLetter U.isDigit) (tag name : Bytes) :
    TagGives U.isLetter U.isDigit tag name ↔ isValidFieldName U (parseTag tag).1 = true ∧ name = (parseTag tag).1 := by
  unfold TagGives
  constructor
  · rintro ⟨opts, h1, h2⟩
    obtain ⟨e1, -⟩ := tagReading_unique h1 (parseTag_reading tag)
    refine ⟨?_, e1⟩
    rw [isValidFieldName_iff hU, ← e1]; exact h2
  · rintro ⟨h1, rfl⟩
    exact ⟨_, parseTag_reading tag, (isValidFieldName_iff hU _).mp h1⟩

theorem validName_ne {U : UnicodeTab} {s : Bytes} (h : isValidFieldName U s = true) : s ≠ [] := by
  rintro rfl; simp [isValidFieldName] at h

theorem isStruct_not_ptr {E : Env} {t e : TId} (h : IsStruct E t) : (E t).kind ≠ .ptr e := by
  obtain ⟨fs, h⟩ := h
  unfold HasFields at h
  rw [h]; simp

theorem cls_embed {E : Env} {U : UnicodeTab} (hU : TablesOk U.isLetter U.isDigit) {sf : FieldDef} {v : TId} {ptr : Bool} :
    cls E U sf = .embed v ptr ↔ Promotes U.isLetter U.isDigit E sf v ptr := by
  unfold cls Promotes Encodable
  rw [← shouldEncode_iff]
  by_cases h1 : shouldEncodeField E sf = true
  · simp only [h1, Bool.not_true, Bool.false_eq_true, if_false, true_and]
    by_cases h2 : sf.tag = b! "-"
    · simp [h2]
    · simp only [h2, if_false, ne_eq, not_false_eq_true, true_and]
      by_cases h3 : isValidFieldName U (parseTag sf.tag).1 = true
      · have hne := validName_ne h3
        simp only [h3, if_true, hne, not_false_eq_true, decide_true, Bool.true_or]
        constructor
        · intro h; cases h
        · rintro ⟨-, h, -⟩
          exact absurd ((tagGives_iff hU _ _).mpr ⟨h3, rfl⟩) (h _)
      · have hno : ∀ n, ¬ TagGives U.isLetter U.isDigit sf.tag n := by
          intro n hn; exact h3 ((tagGives_iff hU _ _).mp hn).1
        simp only [h3, Bool.false_eq_true, if_false, not_true_eq_false, decide_false, Bool.false_or]
        cases han : sf.anonymous with
        | false => simp
        | true =>
          simp only [Bool.not_true, Bool.false_or, Bool.not_eq_true', true_and]
          unfold scanTyp
          by_cases hp : ((E sf.typ).name = [] ∧ isPtrK (E sf.typ).kind = true)
          · simp only [hp, decide_true, Bool.and_self, if_true]
            obtain ⟨e, he⟩ := (isPtrK_iff _).mp hp.2
            have hde : derefOnce E sf.typ = e := by simp [derefOnce, he]
            rw [hde]
            constructor
            · split
              · intro h; cases h
              · rename_i hs
                simp only [Bool.not_eq_false] at hs
                intro h
                simp only [Cls.embed.injEq] at h
                obtain ⟨rfl, rfl⟩ := h
                exact ⟨hno, (isStructK_iff E _).mp hs, Or.inr ⟨by simp, he, by simp⟩⟩
            · rintro ⟨-, hs, ⟨-, rfl⟩ | ⟨rfl, h, -⟩⟩
              · exact absurd he (isStruct_not_ptr hs)
              · rw [he] at h
                simp only [Kind.ptr.injEq] at h
                subst h
                have := (isStructK_iff E e).mpr hs
                simp [this]
          · have hp' : (decide ((E sf.typ).name = []) && isPtrK (E sf.typ).kind) = false := by
              cases h : (decide ((E sf.typ).name = []) && isPtrK (E sf.typ).kind)
              · rfl
              · simp only [Bool.and_eq_true, decide_eq_true_eq] at h; exact absurd h hp
            simp only [hp', Bool.false_eq_true, if_false]
            constructor
            · split
              · intro h; cases h
              · rename_i hs
                simp only [Bool.not_eq_false] at hs
                intro h
                simp only [Cls.embed.injEq] at h
                obtain ⟨rfl, rfl⟩ := h
                have hst := (isStructK_iff E _).mp hs
                refine ⟨hno, hst, Or.inl ⟨?_, rfl⟩⟩
                cases hq : isPtrK (E sf.typ).kind
                · rfl
                · obtain ⟨e, he⟩ := (isPtrK_iff _).mp hq
                  exact absurd he (isStruct_not_ptr hst)
            · rintro ⟨-, hs, ⟨rfl, rfl⟩ | ⟨rfl, h, h'⟩⟩
              · have h4 := (isStructK_iff E _).mpr hs
                have h5 : isPtrK (E sf.typ).kind = false := by
                  cases hq : isPtrK (E sf.typ).kind
                  · rfl
                  · obtain ⟨e, he⟩ := (isPtrK_iff _).mp hq
                    exact absurd he (isStruct_not_ptr hs)
                simp [h4, h5]
              · exact absurd ⟨h', (isPtrK_iff _).mpr ⟨_, h⟩⟩ hp
  · simp [h1]

theorem cls_leaf {E : Env} {U : UnicodeTab} (hU : TablesOk U.isLetter U.isDigit) {sf : FieldDef} {name : Bytes} {tagged : Bool} :
    cls E U sf = .leaf name tagged ↔ Member U.isLetter U.isDigit E sf name tagged := by
  unfold Member
  simp only [← cls_embed hU]
  unfold cls Encodable
  rw [← shouldEncode_iff]
  by_cases h1 : shouldEncodeField E sf = true
  · simp only [h1, Bool.not_true, Bool.false_eq_true, if_false, true_and]
    by_cases h2 : sf.tag = b! "-"
    · simp [h2]
    · simp only [h2, if_false, ne_eq, not_false_eq_true, true_and]
      by_cases h3 : isValidFieldName U (parseTag sf.tag).1 = true
      · have hne := validName_ne h3
        simp only [h3, if_true, hne, not_false_eq_true, decide_true, Bool.true_or, if_false, Cls.leaf.injEq]
        constructor
        · rintro ⟨rfl, rfl⟩
          exact ⟨by simp, Or.inl ⟨rfl, (tagGives_iff hU _ _).mpr ⟨h3, rfl⟩⟩⟩
        · rintro ⟨-, ⟨rfl, h⟩ | ⟨-, h, -⟩⟩
          · exact ⟨((tagGives_iff hU _ _).mp h).2.symm, rfl⟩
          · exact absurd ((tagGives_iff hU _ _).mpr ⟨h3, rfl⟩) (h _)
      · have hno : ∀ n, ¬ TagGives U.isLetter U.isDigit sf.tag n := by
          intro n hn; exact h3 ((tagGives_iff hU _ _).mp hn).1
        simp only [h3, Bool.false_eq_true, if_false, not_true_eq_false, decide_false, Bool.false_or, if_true]
        split
        · simp only [Cls.leaf.injEq]
          constructor
          · rintro ⟨rfl, rfl⟩
            exact ⟨by simp, Or.inr ⟨rfl, hno, rfl⟩⟩
          · rintro ⟨-, ⟨rfl, h⟩ | ⟨rfl, -, rfl⟩⟩
            · exact absurd h (hno _)
            · exact ⟨rfl, rfl⟩
        · constructor
          · intro h; cases h
          · rintro ⟨h, -⟩
            exact absurd rfl (h _ _)
  · simp [h1]

end Jettison.Proofs
