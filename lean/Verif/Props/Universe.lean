import Verif.Props.Check
import Verif.Spec.Select

/-!
# Universes of types given by a list

For the examples and counterexamples: the types that are not pointers have the
identifiers 0, 2, 4, ..., in the order of the list, and `2 * t + 1` is `*t`. A boolean
test on the list tells that the universe is one of Go types without traps.
-/

namespace Jettison.Props
open Jettison Jettison.Spec Jettison.Model Jettison.Proofs

/-- The type with identifier `t`. -/
def univE (defs : List TypeDef) : Env := fun t =>
  if t % 2 = 1 then
    { kind := .ptr (t / 2), meths := if t / 2 % 2 = 1 then {} else (defs.getD (t / 4) { kind := .other }).pmeths, size := 8 }
  else defs.getD (t / 2) { kind := .other, size := 8 }

/-- The world of the examples over these types. -/
def univW (defs : List TypeDef) : World := { sampleW with E := univE defs }

theorem univ_all {defs : List TypeDef} {P : TId → TypeDef → Prop} [∀ t d, Decidable (P t d)]
    (hp : ∀ t ms, P t { kind := .ptr (t / 2), meths := ms, size := 8 }) (ho : ∀ t, P t { kind := .other, size := 8 })
    (hd : ((List.range defs.length).all fun i => decide (∀ d ∈ defs[i]?, P (2 * i) d)) = true) (t : Nat) : P t (univE defs t) := by
  unfold univE
  split
  · exact hp _ _
  · next h =>
    cases hg : defs[t / 2]? with
    | none => rw [List.getD_eq_getElem?_getD, hg]; exact ho t
    | some d =>
      rw [List.getD_eq_getElem?_getD, hg]
      have h2 : t % 2 = 0 := by
        rcases Nat.mod_two_eq_zero_or_one t with h' | h'
        · exact h'
        · exact absurd h' h
      have e : 2 * (t / 2) = t := by omega
      rw [List.all_eq_true] at hd
      have hlt : t / 2 < defs.length := by
        obtain ⟨h, _⟩ := List.getElem?_eq_some_iff.mp hg; exact h
      have := of_decide_eq_true (hd (t / 2) (by simpa using hlt)) d hg
      simpa [e] using this

/-- The fields embedded in a definition. -/
def embedsOf (d : TypeDef) : List FieldDef := (fieldsOfK d.kind).filter (·.anonymous)

/-- The kind of a struct with one field. -/
def isStruct1 : Kind → Bool
  | .struct [_] => true
  | _ => false

/-- The conditions on one definition. -/
def defOk (defs : List TypeDef) (d : TypeDef) : Bool :=
  (match d.special with
    | none => true
    | some .duration => d.kind == .int .int64
    | some .number => d.kind == .string
    | some .rawMessage => match d.kind with | .slice e => (univE defs e).kind == .int .uint8 | _ => false
    | some .time => d.kind == .struct []
    | some .syncMap => d.kind == .struct []) &&
  (d.kind != .int .uint8 || d.size == 1) &&
  !isPtrK d.kind &&
  ((embedsOf d).all fun sf => (embedsOf (univE defs sf.typ)).isEmpty && (embedsOf (univE defs (derefOnce (univE defs) sf.typ))).isEmpty) &&
  (!isStruct1 d.kind || (fieldsOfK d.kind).all fun f => !isStruct1 (univE defs f.typ).kind)

/-- The conditions on the list. -/
def univOk (defs : List TypeDef) : Bool := (List.range defs.length).all fun i => decide (∀ d ∈ defs[i]?, defOk defs d = true)

variable {defs : List TypeDef}

/-- Every type of the universe is a pointer or meets the conditions. -/
theorem univ_ok (h : univOk defs = true) (t : TId) : (∃ ms, univE defs t = { kind := .ptr (t / 2), meths := ms, size := 8 }) ∨ defOk defs (univE defs t) = true := by
  have : isPtrK (univE defs t).kind = true ∨ defOk defs (univE defs t) = true :=
    univ_all (P := fun _ d => isPtrK d.kind = true ∨ defOk defs d = true) (by simp [isPtrK])
      (by intro t; right; simp [defOk, embedsOf, fieldsOfK, isPtrK, isStruct1]) (by
        rw [List.all_eq_true]; intro i hi
        simp only [univOk, List.all_eq_true] at h
        have := of_decide_eq_true (h i hi)
        simp only [decide_eq_true_eq]
        exact fun d hd => .inr (this d hd)) t
  rcases this with h1 | h1
  · by_cases ho : t % 2 = 1
    · left; unfold univE; rw [if_pos ho]; exact ⟨_, rfl⟩
    · right
      unfold univE at h1 ⊢
      rw [if_neg ho] at h1 ⊢
      cases hg : defs[t / 2]? with
      | none => rw [List.getD_eq_getElem?_getD, hg]; simp [defOk, embedsOf, fieldsOfK, isPtrK, isStruct1]
      | some d =>
        rw [List.getD_eq_getElem?_getD, hg]
        simp only [univOk, List.all_eq_true] at h
        have hlt : t / 2 < defs.length := by
          obtain ⟨h, _⟩ := List.getElem?_eq_some_iff.mp hg; exact h
        exact of_decide_eq_true (h (t / 2) (by simpa using hlt)) d hg
  · exact .inr h1

theorem univ_types (h : univOk defs = true) : GoTypes (univE defs) (fun t => 2 * t + 1) := by
  have key := univ_ok h
  have sp : ∀ t s, (univE defs t).special = some s → defOk defs (univE defs t) = true := by
    intro t s hs
    rcases key t with ⟨ms, e⟩ | e
    · rw [e] at hs; simp at hs
    · exact e
  refine ⟨?_, ?_, ?_, ?_, ?_, ?_, ?_⟩
  · intro t
    have h1 : (2 * t + 1) % 2 = 1 := Nat.mul_add_mod ..
    have h2 : (2 * t + 1) / 2 = t := by rw [Nat.mul_add_div (by decide)]; rfl
    simp only [univE, if_pos h1, h2]
  · intro t hs; have := sp t _ hs; simp only [defOk, hs, Bool.and_eq_true, beq_iff_eq] at this; exact this.1.1.1.1
  · intro t hs; have := sp t _ hs; simp only [defOk, hs, Bool.and_eq_true, beq_iff_eq] at this; exact this.1.1.1.1
  · intro t hs; have := sp t _ hs; simp only [defOk, hs, Bool.and_eq_true] at this
    have := this.1.1.1.1
    split at this
    · next e he => exact ⟨e, he, by simpa using this⟩
    · simp at this
  · intro t hs; have := sp t _ hs; simp only [defOk, hs, Bool.and_eq_true, beq_iff_eq] at this; exact ⟨[], this.1.1.1.1, by simp⟩
  · intro t hs; have := sp t _ hs; simp only [defOk, hs, Bool.and_eq_true, beq_iff_eq] at this; exact ⟨[], this.1.1.1.1, by simp⟩
  · intro t hk
    rcases key t with ⟨ms, e⟩ | e
    · rw [e] at hk; simp at hk
    · simp only [defOk, Bool.and_eq_true, hk, bne_self_eq_false, Bool.false_or, beq_iff_eq] at e; exact e.1.1.1.2

theorem univ_noFork (h : univOk defs = true) (t : TId) : NoSpareFork asciiTab.isLetter asciiTab.isDigit growDouble (univE defs) t := by
  have key := univ_ok h
  refine noFork_of_rank (fun t => if (embedsOf (univE defs t)).isEmpty then 0 else 1) (by intro t; split <;> omega) ?_ t
  intro u fs sf v ptr hf hs hp
  have hanon := hp.2.1
  simp only [HasFields] at hf
  have hmem : sf ∈ embedsOf (univE defs u) := by
    simp [embedsOf, hf, fieldsOfK, hs, hanon]
  have hne : (embedsOf (univE defs u)).isEmpty = false := by
    cases hc : embedsOf (univE defs u) with
    | nil => rw [hc] at hmem; simp at hmem
    | cons a b => rfl
  rcases key u with ⟨ms, e⟩ | e
  · rw [e] at hf; simp at hf
  · simp only [defOk, Bool.and_eq_true, List.all_eq_true] at e
    have := e.1.2 sf hmem
    simp only [hne]
    rcases hp.2.2.2.2 with ⟨_, rfl⟩ | ⟨_, hk, _⟩
    · simp [this.1]
    · have h2 := this.2
      simp only [derefOnce, hk] at h2
      simp [h2]

theorem univ_nest (h : univOk defs = true) : NestBound (univE defs) 10 := by
  have key := univ_ok h
  refine ⟨fun t => if isStruct1 (univE defs t).kind then 1 else 0, ?_, by intro t; show (if _ then 1 else 0) < 10; split <;> omega⟩
  intro t f hk
  rcases key t with ⟨ms, e⟩ | e
  · rw [e] at hk; simp at hk
  · simp only [defOk, hk, Bool.and_eq_true] at e
    have := e.2
    rw [show isStruct1 (.struct [f]) = true from rfl] at this
    simp only [Bool.not_true, Bool.false_or, fieldsOfK, List.all_cons, List.all_nil, Bool.and_true, Bool.not_eq_true'] at this
    show (if isStruct1 (univE defs f.typ).kind = true then 1 else 0) < (if isStruct1 (univE defs t).kind = true then 1 else 0)
    rw [this, hk]
    exact Nat.zero_lt_one

/-- The text of the receiver, if it is of string kind. -/
def univRecv (defs : List TypeDef) (m : Mem) (t : TId) (w : Loc) : Option Bytes := if (univE defs t).kind = .string then readStr m w else none

/-- A heap with these cells and methods that see the text of the receiver. -/
def univHeap (defs : List TypeDef) (meth : MethKind → Option Ctx → TId → Option Bytes → Bytes → MethRes) (cells : List (Addr × Cell)) : Heap where
  mem a := (cells.find? (·.1 = a)).map (·.2)
  meth _ m ctx t w dst := meth m ctx t (univRecv defs (fun a => (cells.find? (·.1 = a)).map (·.2)) t w) dst

/-- The same methods on values. -/
def univM (meth : MethKind → Option Ctx → TId → Option Bytes → Bytes → MethRes) : MethV := fun _ m ctx t v dst => meth m ctx t (strOf v) dst

theorem univ_recv (h : univOk defs = true) {m : Mem} {t : TId} {w : Loc} {v : Val} (hr : Recv (univE defs) m t w v) :
    univRecv defs m t w = strOf v := by
  have G := univ_types h
  have key : ∀ {w}, Repr (univE defs) m t w v → univRecv defs m t w = strOf v := by
    intro w hr
    cases hr with
    | time hs _ => obtain ⟨fs, hk, _⟩ := G.time _ hs; simp [univRecv, hk, strOf]
    | smap hs _ _ _ _ => obtain ⟨fs, hk, _⟩ := G.syncMap _ hs; simp [univRecv, hk, strOf]
    | eface hk _ h => cases h <;> simp [univRecv, hk, strOf]
    | iface hk _ _ h => cases h <;> simp [univRecv, hk, strOf]
    | _ => simp_all [readStr, univRecv, strOf]
  cases hr with
  | direct hd hr =>
    rw [← key hr]
    cases hd <;> simp_all [univRecv]
  | indirect hd hr => exact key hr

theorem univ_ready (h : univOk defs = true) (meth : MethKind → Option Ctx → TId → Option Bytes → Bytes → MethRes) (cells : List (Addr × Cell)) :
    Ready (univW defs) (univHeap defs meth cells) (univM meth) where
  types := univ_types h
  apart := fun t => apart_of_noFork asciiOk (univ_noFork h t)
  nest := univ_nest h
  tab := asciiOk
  sort := isort_ok
  meth path m ctx t w v dst hr := by
    simp only [univHeap, univM]
    rw [← univ_recv h hr]
    rfl

theorem univ_repr {m : Mem} {x : Eface} {v : Val} (n : Nat)
    (hc : checkE (univE defs) (isInlined (univE defs) 10) m n x v = true) : ReprE (univE defs) m x v := by
  exact (checkRepr_sound (fun t => isInlined_sound 10 t) n).2 x v hc

/-- ASCII identifiers. -/
theorem ascii_ident {s : Bytes} (h : (s != [] && s.all fun c => (0x41 ≤ c && c ≤ 0x5A) || (0x61 ≤ c && c ≤ 0x7A) || (0x30 ≤ c && c ≤ 0x39) || c = 0x5F) = true) :
    GoIdent asciiTab.isLetter asciiTab.isDigit s := by
  simp only [Bool.and_eq_true, bne_iff_ne, ne_eq, List.all_eq_true] at h
  refine ⟨h.1, s.map UInt8.toNat, ?_, ?_⟩
  · intro c hc
    obtain ⟨b, hb, rfl⟩ := List.mem_map.mp hc
    have := h.2 b hb
    simp only [Bool.or_eq_true, Bool.and_eq_true, decide_eq_true_eq, UInt8.le_iff_toNat_le] at this
    have e : b = 0x5F ↔ b.toNat = 0x5F := ⟨fun h => by rw [h]; rfl, fun h => UInt8.toNat_inj.mp h⟩
    rw [e] at this
    have h3 : b.toNat < 0x80 := by
      rcases this with ((h | h) | h) | h
      · have := h.2; simp at this; omega
      · have := h.2; simp at this; omega
      · have := h.2; simp at this; omega
      · omega
    refine ⟨?_, ?_⟩
    · simp only [IsScalar]; omega
    · simp only [asciiTab, Bool.or_eq_true, Bool.and_eq_true, decide_eq_true_eq]
      simp at this
      omega
  · have : ∀ l : Bytes, (∀ b ∈ l, b.toNat < 0x80) → l = (l.map UInt8.toNat).flatMap utf8Encode := by
      intro l hl
      induction l with
      | nil => rfl
      | cons b l ih =>
        have hb := hl b (by simp)
        rw [List.map_cons, List.flatMap_cons, ← ih (fun c hc => hl c (by simp [hc]))]
        simp [utf8Encode, hb]
    apply this
    intro b hb
    have := h.2 b hb
    simp only [Bool.or_eq_true, Bool.and_eq_true, decide_eq_true_eq, UInt8.le_iff_toNat_le] at this
    have e : b = 0x5F ↔ b.toNat = 0x5F := ⟨fun h => by rw [h]; rfl, fun h => UInt8.toNat_inj.mp h⟩
    rw [e] at this
    simp at this
    omega

/-- The field names of the universe are identifiers. -/
theorem univ_names (h : (defs.all fun d => (fieldsOfK d.kind).all fun sf => (sf.name != [] && sf.name.all fun c =>
    (0x41 ≤ c && c ≤ 0x5A) || (0x61 ≤ c && c ≤ 0x7A) || (0x30 ≤ c && c ≤ 0x39) || c = 0x5F)) = true) :
    GoNames asciiTab.isLetter asciiTab.isDigit (univE defs) := by
  intro u fs sf hf hs
  simp only [HasFields, univE] at hf
  split at hf
  · simp at hf
  · cases hg : defs[u / 2]? with
    | none => rw [List.getD_eq_getElem?_getD, hg] at hf; simp at hf
    | some d =>
      rw [List.getD_eq_getElem?_getD, hg] at hf
      simp only [List.all_eq_true] at h
      have := h d (List.mem_of_getElem? hg) sf (by simp only [Option.getD_some] at hf; simp [hf, fieldsOfK, hs])
      exact ascii_ident this

end Jettison.Props
