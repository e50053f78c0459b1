import Verif.Proofs.Abs
import Verif.Proofs.Recorded
import Verif.Spec.Safe

/-! # Instructions that fit a type -/

namespace Jettison.Proofs
open Jettison Jettison.Model Jettison.Spec

variable {E : Env}

/-- The instruction for the keys of a map whose key type is `kt`. -/
def KeyMade (E : Env) (kt : TId) (ki : Instr) : Prop :=
  ∃ k j, (if isStringK (E kt).kind then some Instr.string else newInstruction E k kt false false) = some j ∧ ki = wrapKey E kt j

/-- The instruction fits values of the type, addressable or not. -/
inductive Typed (E : Env) : TId → Bool → Instr → Prop
  | goType {t ca s} : (E t).special = some s → Typed E t ca (.goType s)
  | marsh {t ca m} : MethSet.Has (E t).meths m → (E t).special = none → Typed E t ca (.marshaler m t false)
  | marshP {t ca m} : ¬ MethSet.Has (E t).meths m → MethSet.Has (E t).pmeths m → ca = true → isPtrK (E t).kind = false → (E t).special = none → Typed E t ca (.marshaler m t true)
  | bool {t ca} : (E t).kind = .bool → Typed E t ca .bool
  | int {t ca k} : (E t).kind = .int k → Typed E t ca (.int k)
  | float {t ca w} : (E t).kind = .float w → Typed E t ca (.float w)
  | string {t ca} : (E t).kind = .string → Typed E t ca .string
  | quotedString {t ca} : (E t).kind = .string → Typed E t ca .quotedString
  | quoted {t ca i} : Typed E t ca i → Typed E t ca (.quoted i)
  | nilText {t ca i} : isPtrK (E t).kind = true → Typed E t ca i → Typed E t ca (.nilText i)
  | iface {t ca n} : (E t).kind = .iface n → ¬ MethSet.any (E t).meths → Typed E t ca .iface
  | struct {t ca} : isStructK (E t).kind = true → (E t).special = none → Typed E t ca (.struct t ca)
  | map {t ca k e ki vi} : (E t).kind = .map k e → KeyMade E k ki → Typed E k false ki → Typed E e false vi → Typed E t ca (.map t ki vi)
  | byteSlice {t ca e} : (E t).kind = .slice e → (E e).kind = .int .uint8 → Typed E t ca .byteSlice
  | slice {t ca e i} : (E t).kind = .slice e → Typed E e true i → Typed E t ca (.slice i (E e).size)
  | array {t ca n e i isba} : (E t).kind = .array n e → (isba = true → (E e).kind = .int .uint8) → Typed E e ca i →
      Typed E t ca (.array i (E e).size n isba)
  | ptr {t ca e i} : (E t).kind = .ptr e → Typed E e true i → Typed E t ca (.ptr i)
  | unsupported {t ca u} : Typed E t ca (.unsupported u)

theorem has_any {s : MethSet} {m : MethKind} (h : MethSet.Has s m) : MethSet.any s := by
  rcases h with ⟨-, h⟩ | ⟨-, h⟩ | ⟨-, h⟩ | ⟨-, h⟩
  · exact .inl h
  · exact .inr (.inl h)
  · exact .inr (.inr (.inl h))
  · exact .inr (.inr (.inr h))

theorem newMarshaler_typed {t : TId} {ca : Bool} {i : Instr} (hs : (E t).special = none)
    (h : newMarshalerTypeInstr E t ca = some i) : Typed E t ca i := by
  unfold newMarshalerTypeInstr at h
  have hp : ∀ {m : MethKind} {b : Bool}, ¬ MethSet.Has (E t).meths m → (b = true → MethSet.Has (E t).pmeths m) → ((!isPtrK (E t).kind && ca) && b) = true →
      Typed E t ca (.marshaler m t true) := by
    intro m b hn hm hb
    simp only [Bool.and_eq_true, Bool.not_eq_true'] at hb
    exact .marshP hn (hm hb.2) hb.1.2 hb.1.1 hs
  simp only at h
  split at h
  · next h1 => cases h; exact .marsh (.inl ⟨rfl, h1⟩) hs
  split at h
  · next hn h1 => cases h; exact hp (by simpa [MethSet.Has] using hn) (fun h => .inl ⟨rfl, h⟩) h1
  split at h
  · next h1 => cases h; exact .marsh (.inr (.inl ⟨rfl, h1⟩)) hs
  split at h
  · next hn h1 => cases h; exact hp (by simpa [MethSet.Has] using hn) (fun h => .inr (.inl ⟨rfl, h⟩)) h1
  split at h
  · next h1 => cases h; exact .marsh (.inr (.inr (.inl ⟨rfl, h1⟩))) hs
  split at h
  · next hn h1 => cases h; exact hp (by simpa [MethSet.Has] using hn) (fun h => .inr (.inr (.inl ⟨rfl, h⟩))) h1
  split at h
  · next h1 => cases h; exact .marsh (.inr (.inr (.inr ⟨rfl, h1⟩))) hs
  split at h
  · next hn h1 => cases h; exact hp (by simpa [MethSet.Has] using hn) (fun h => .inr (.inr (.inr ⟨rfl, h⟩))) h1
  · simp at h

theorem newMarshaler_none {t : TId} {ca : Bool} (h : newMarshalerTypeInstr E t ca = none) :
    ¬ MethSet.any (E t).meths := by
  unfold newMarshalerTypeInstr at h
  simp only at h
  intro ha
  split at h <;> first | (simp at h; done) | skip
  split at h <;> first | (simp at h; done) | skip
  split at h <;> first | (simp at h; done) | skip
  split at h <;> first | (simp at h; done) | skip
  split at h <;> first | (simp at h; done) | skip
  split at h <;> first | (simp at h; done) | skip
  split at h <;> first | (simp at h; done) | skip
  simp_all [MethSet.any]

theorem newBasic_typed {t : TId} {ca q : Bool} {i : Instr} (h : newBasicTypeInstr (E t).kind q = some i) :
    Typed E t ca i := by
  unfold newBasicTypeInstr at h
  split at h
  · next hk => cases q <;> simp at h <;> subst h
               · exact .bool hk
               · exact .quoted (.bool hk)
  · next hk => cases q <;> simp at h <;> subst h
               · exact .string hk
               · exact .quotedString hk
  · next hk => cases q <;> simp at h <;> subst h
               · exact .int hk
               · exact .quoted (.int hk)
  · next hk => cases q <;> simp at h <;> subst h
               · exact .float hk
               · exact .quoted (.float hk)
  · simp at h

theorem wrapKey_typed {k : TId} {ki : Instr} (h : Typed E k false ki) : Typed E k false (wrapKey E k ki) := by
  unfold wrapKey
  simp only
  have h1 : Typed E k false (if (!isStringK (E k).kind && !(E k).meths.text) = true then ki.quoted else ki) := by
    split
    · exact .quoted h
    · exact h
  split
  · next h2 => simp at h2; exact .nilText h2.2 h1
  · exact h1

theorem isByteElem_kind {e : TId} (h : isByteElem E e = true) : (E e).kind = .int .uint8 := by
  simp [isByteElem] at h; exact h.1.1

theorem newInstruction_typed : ∀ (fuel : Nat) {t : TId} {ca q : Bool} {i : Instr},
    newInstruction E fuel t ca q = some i → Typed E t ca i
  | 0, _, _, _, _, h => by simp [newInstruction] at h
  | fuel + 1, t, ca, q, i, h => by
    unfold newInstruction at h
    split at h
    · next hg =>
      cases h
      unfold newGoTypeInstr at hg
      cases hs : (E t).special with
      | none => simp [hs] at hg
      | some s => simp [hs] at hg; subst hg; exact .goType hs
    · next hg =>
      have hs : (E t).special = none := by
        unfold newGoTypeInstr at hg
        cases hs : (E t).special with
        | none => rfl
        | some s => simp [hs] at hg
      split at h
      · next hm => cases h; exact newMarshaler_typed hs hm
      · next hm =>
        split at h
        · next hb => cases h; exact newBasic_typed hb
        · split at h
          · next hk => cases h; exact .iface hk (newMarshaler_none hm)
          · next hk => cases h; exact .struct (by rw [hk]; rfl) hs
          · next kt et hk =>
            split at h
            · cases h; exact .unsupported
            · split at h
              · next ki vi h1 h2 =>
                cases h
                refine .map hk ⟨_, _, h1, rfl⟩ (wrapKey_typed ?_) (newInstruction_typed fuel h2)
                split at h1
                · next hstr =>
                  cases h1
                  refine .string ?_
                  revert hstr
                  cases (E kt).kind <;> simp [isStringK]
                · exact newInstruction_typed fuel h1
              · simp at h
          · next e hk =>
            split at h
            · next hb => cases h; exact .byteSlice hk (isByteElem_kind hb)
            · simp only [Option.map_eq_some_iff] at h
              obtain ⟨j, hj, rfl⟩ := h
              exact .slice hk (newInstruction_typed fuel hj)
          · next n e hk =>
            simp only [Option.map_eq_some_iff] at h
            obtain ⟨j, hj, rfl⟩ := h
            exact .array hk isByteElem_kind (newInstruction_typed fuel hj)
          · next e hk =>
            simp only [Option.map_eq_some_iff] at h
            obtain ⟨j, hj, rfl⟩ := h
            exact .ptr hk (newInstruction_typed fuel hj)
          · cases h; exact .unsupported

theorem mapM_mem {α β : Type} {f : α → Option β} : ∀ {l : List α} {r : List β}, l.mapM f = some r →
    ∀ b ∈ r, ∃ a ∈ l, f a = some b
  | [], r, h, b, hb => by simp at h; subst h; simp at hb
  | a :: l, r, h, b, hb => by
    simp only [List.mapM_cons] at h
    cases hf : f a with
    | none => simp [hf] at h
    | some c =>
      cases hl : l.mapM f with
      | none => simp [hf, hl] at h
      | some l' =>
        simp [hf, hl] at h
        subst h
        simp at hb
        rcases hb with rfl | hb
        · exact ⟨a, by simp, hf⟩
        · obtain ⟨a', h1, h2⟩ := mapM_mem hl b hb
          exact ⟨a', by simp [h1], h2⟩

/-- What `newFieldInstr` records. -/
structure FieldOk (E : Env) (t : TId) (ca : Bool) (f : FInstr) (ftyp : TId) : Prop where
  typ : typeByIndex E t f.fld.index = some ftyp
  instr : Typed E ftyp ca f.instr
  omitNil : f.omitNil = true → isNilable (E ftyp).kind = true
  empty : ∀ e, f.empty = some e → e = emptyFuncOf (E ftyp).kind

theorem newFieldInstr_ok {fuel : Nat} {t : TId} {ca : Bool} {f : Fld} {g : FInstr}
    (h : newFieldInstr E fuel t ca f = some g) : g.fld = f ∧ ∃ ftyp, FieldOk E t ca g ftyp := by
  unfold newFieldInstr at h
  split at h
  · simp at h
  · next ftyp hf =>
    simp only at h
    split at h
    · simp at h
    · next i hi =>
      cases h
      refine ⟨rfl, ftyp, hf, newInstruction_typed _ hi, ?_, ?_⟩
      · simp
      · intro e he
        simp only at he
        split at he
        · simpa using he.symm
        · simp at he

theorem structFieldsInstr_ok {U : UnicodeTab} {grow : Grow} {sort : SortAlg} {fuel : Nat} {t : TId} {ca : Bool}
    {l : List FInstr} (h : structFieldsInstr E U grow sort fuel t ca = some l) :
    ∃ fl, structFields E U grow sort fuel t = some fl ∧ fl.mapM (newFieldInstr E fuel t ca) = some l ∧
      ∀ g ∈ l, g.fld ∈ fl ∧ ∃ ftyp, FieldOk E t ca g ftyp := by
  unfold structFieldsInstr at h
  split at h
  · simp at h
  · next fl hfl =>
    refine ⟨fl, hfl, h, ?_⟩
    intro g hg
    obtain ⟨f, hf, hfg⟩ := mapM_mem h g hg
    obtain ⟨rfl, h2⟩ := newFieldInstr_ok hfg
    exact ⟨hf, h2⟩

end Jettison.Proofs
