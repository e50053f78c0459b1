import Verif.Proofs.StructOut

/-! # The instruction of a type encoded by its kind -/

namespace Jettison.Proofs
open Jettison Jettison.Model Jettison.Spec

variable {E : Env} {t : TId} {ca q : Bool} {k : Nat} {i : Instr}

theorem byKind_go (h : ByKind E t ca) : newGoTypeInstr E t = none := by simp [newGoTypeInstr, h.special]

theorem byKind_marshaler (h : ByKind E t ca) : newMarshalerTypeInstr E t ca = none := by
  have h1 := h.meths
  have h2 := h.pmeths
  simp only [MethSet.any, not_or, Bool.not_eq_true] at h1 h2
  obtain ⟨a1, a2, a3, a4⟩ := h1
  cases ca with
  | false => simp [newMarshalerTypeInstr, a1, a2, a3, a4]
  | true =>
    cases hp : isPtrK (E t).kind with
    | true => simp [newMarshalerTypeInstr, a1, a2, a3, a4, hp]
    | false =>
      obtain ⟨b1, b2, b3, b4⟩ := h2 rfl hp
      simp [newMarshalerTypeInstr, a1, a2, a3, a4, b1, b2, b3, b4]

/-- Generation below the tests for native types and methods. -/
theorem byKind_pos (h : newInstruction E k t ca q = some i) : ∃ k', k = k' + 1 := by
  cases k with
  | zero => simp [newInstruction] at h
  | succ k => exact ⟨k, rfl⟩

theorem byKind_struct {fs : List FieldDef} (hb : ByKind E t ca) (hk : (E t).kind = .struct fs)
    (h : newInstruction E k t ca q = some i) : i = .struct t ca := by
  obtain ⟨k, rfl⟩ := byKind_pos h
  simp only [newInstruction, byKind_go hb, byKind_marshaler hb, hk, newBasicTypeInstr] at h
  simpa using h.symm

theorem byKind_iface {n : Nat} (hb : ByKind E t ca) (hk : (E t).kind = .iface n)
    (h : newInstruction E k t ca q = some i) : i = .iface := by
  obtain ⟨k, rfl⟩ := byKind_pos h
  simp only [newInstruction, byKind_go hb, byKind_marshaler hb, hk, newBasicTypeInstr] at h
  simpa using h.symm

theorem byKind_other (hb : ByKind E t ca) (hk : (E t).kind = .other)
    (h : newInstruction E k t ca q = some i) : i = .unsupported t := by
  obtain ⟨k, rfl⟩ := byKind_pos h
  simp only [newInstruction, byKind_go hb, byKind_marshaler hb, hk, newBasicTypeInstr] at h
  simpa using h.symm

theorem byKind_badMap {kt et : TId} (hb : ByKind E t ca) (hk : (E t).kind = .map kt et) (hkey : mapKeyOk E kt = false)
    (h : newInstruction E k t ca q = some i) : i = .unsupported t := by
  obtain ⟨k, rfl⟩ := byKind_pos h
  simp only [newInstruction, byKind_go hb, byKind_marshaler hb, hk, newBasicTypeInstr, hkey, Bool.not_false, if_true] at h
  simpa using h.symm

theorem byKind_map {kt et : TId} (hb : ByKind E t ca) (hk : (E t).kind = .map kt et) (hkey : mapKeyOk E kt = true)
    (h : newInstruction E k t ca q = some i) : ∃ k' ki vi,
      (if isStringK (E kt).kind then some .string else newInstruction E k' kt false false) = some ki ∧
      newInstruction E k' et false false = some vi ∧ i = .map t (wrapKey E kt ki) vi := by
  obtain ⟨k, rfl⟩ := byKind_pos h
  simp only [newInstruction, byKind_go hb, byKind_marshaler hb, hk, newBasicTypeInstr, hkey, Bool.not_true, Bool.false_eq_true, if_false] at h
  split at h
  · next ki vi h1 h2 => exact ⟨k, ki, vi, h1, h2, by simpa using h.symm⟩
  · simp at h

theorem byKind_byteSlice {e : TId} (hb : ByKind E t ca) (hk : (E t).kind = .slice e) (he : isByteElem E e = true)
    (h : newInstruction E k t ca q = some i) : i = .byteSlice := by
  obtain ⟨k, rfl⟩ := byKind_pos h
  simp only [newInstruction, byKind_go hb, byKind_marshaler hb, hk, newBasicTypeInstr, he, if_true] at h
  simpa using h.symm

theorem byKind_slice {e : TId} (hb : ByKind E t ca) (hk : (E t).kind = .slice e) (he : isByteElem E e = false)
    (h : newInstruction E k t ca q = some i) : ∃ k' j, newInstruction E k' e true false = some j ∧ i = .slice j (E e).size := by
  obtain ⟨k, rfl⟩ := byKind_pos h
  simp only [newInstruction, byKind_go hb, byKind_marshaler hb, hk, newBasicTypeInstr, he, Bool.false_eq_true, if_false,
    Option.map_eq_some_iff] at h
  obtain ⟨j, hj, rfl⟩ := h
  exact ⟨k, j, hj, rfl⟩

theorem byKind_array {n : Nat} {e : TId} (hb : ByKind E t ca) (hk : (E t).kind = .array n e)
    (h : newInstruction E k t ca q = some i) : ∃ k' j, newInstruction E k' e ca false = some j ∧
      i = .array j (E e).size n (isByteElem E e) := by
  obtain ⟨k, rfl⟩ := byKind_pos h
  simp only [newInstruction, byKind_go hb, byKind_marshaler hb, hk, newBasicTypeInstr, Option.map_eq_some_iff] at h
  obtain ⟨j, hj, rfl⟩ := h
  exact ⟨k, j, hj, rfl⟩

theorem byKind_ptr {e : TId} (hb : ByKind E t ca) (hk : (E t).kind = .ptr e)
    (h : newInstruction E k t ca q = some i) : ∃ k' j, newInstruction E k' e true q = some j ∧ i = .ptr j := by
  obtain ⟨k, rfl⟩ := byKind_pos h
  simp only [newInstruction, byKind_go hb, byKind_marshaler hb, hk, newBasicTypeInstr, Option.map_eq_some_iff] at h
  obtain ⟨j, hj, rfl⟩ := h
  exact ⟨k, j, hj, rfl⟩

theorem byKind_basic (hb : ByKind E t ca) (hk : isBasicK (E t).kind = true)
    (h : newInstruction E k t ca q = some i) : newBasicTypeInstr (E t).kind q = some i := by
  obtain ⟨k, rfl⟩ := byKind_pos h
  simp only [newInstruction, byKind_go hb, byKind_marshaler hb] at h
  split at h
  · next j hj => rw [hj]; exact h
  · next hn =>
    revert hn hk
    cases (E t).kind <;> simp [newBasicTypeInstr, isBasicK, isInteger]

/-! ## The fields of a struct -/

theorem mapM_fld {U : List Fld} {l : List FInstr} (h : U.mapM (newFieldInstr E k t ca) = some l) :
    l.map FInstr.fld = U ∧ ∀ g ∈ l, newFieldInstr E k t ca g.fld = some g := by
  induction U generalizing l with
  | nil => simp at h; subst h; simp
  | cons f fs ih =>
    simp only [List.mapM_cons] at h
    cases hf : newFieldInstr E k t ca f with
    | none => simp [hf] at h
    | some g =>
      cases hl : fs.mapM (newFieldInstr E k t ca) with
      | none => simp [hf, hl] at h
      | some l' =>
        simp [hf, hl] at h
        subst h
        obtain ⟨h1, h2⟩ := ih hl
        have hg : g.fld = f := (newFieldInstr_ok hf).1
        refine ⟨by simp [hg, h1], ?_⟩
        intro g' hg'
        simp only [List.mem_cons] at hg'
        rcases hg' with rfl | hg'
        · rw [hg]; exact hf
        · exact h2 g' hg'

theorem membersOf_empty {letter digit : Nat → Bool} (hk : (E t).kind = .struct []) : MembersOf letter digit E t [] := by
  refine ⟨.nil, fun m => ?_⟩
  constructor
  · intro h; simp at h
  · rintro ⟨p, u, i, r, tg, _, hp, _⟩
    obtain ⟨⟨p', q, hr, _⟩, ⟨fs, hf, hi⟩, _⟩ := hp
    have : ∀ {p u q}, Reaches letter digit E t p u q → u = t := by
      intro p u q h
      induction h with
      | here => rfl
      | step h hf hi hp ih =>
        subst ih
        simp only [HasFields, hk, Kind.struct.injEq] at hf
        subst hf
        simp at hi
    have := this hr
    subst this
    simp only [HasFields, hk, Kind.struct.injEq] at hf
    subst hf
    simp at hi

end Jettison.Proofs
