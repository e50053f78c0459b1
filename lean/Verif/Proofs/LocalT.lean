import Verif.Spec.Local
import Verif.Model.Instr

/-! # Preparing a type does not depend on other types -/

namespace Jettison.Proofs
open Jettison Jettison.Model Jettison.Spec

/-- The two universes have the types of the set in common, which has their components. -/
structure Shares (S : TId → Prop) (E E' : Env) : Prop where
  same : ∀ t, S t → E' t = E t
  parts : ∀ t u, S t → PartOf E u t → S u
  fields : ∀ t fs sf, S t → HasFields E t fs → sf ∈ fs → S sf.typ

variable {S : TId → Prop} {E E' : Env}

theorem Shares.symm (h : Shares S E E') : Shares S E' E where
  same t ht := (h.same t ht).symm
  parts t u ht hp := by
    refine h.parts t u ht ?_
    have e := h.same t ht
    cases hp with
    | ptr k => exact .ptr (e ▸ k)
    | slice k => exact .slice (e ▸ k)
    | array k => exact .array (e ▸ k)
    | key k => exact .key (e ▸ k)
    | val k => exact .val (e ▸ k)
  fields t fs sf ht hf := h.fields t fs sf ht (by unfold HasFields at hf ⊢; rw [← h.same t ht]; exact hf)

theorem Shares.deref (h : Shares S E E') {t : TId} (ht : S t) : derefOnce E' t = derefOnce E t ∧ S (derefOnce E t) := by
  unfold derefOnce
  rw [h.same t ht]
  refine ⟨rfl, ?_⟩
  split
  · rename_i e he; exact h.parts t e ht (.ptr he)
  · exact ht

/-! ## The rules of embedding -/

theorem Shares.hasFields (h : Shares S E E') {t : TId} (ht : S t) {fs : List FieldDef} : HasFields E' t fs ↔ HasFields E t fs := by
  unfold HasFields; rw [h.same t ht]

theorem Shares.isStruct (h : Shares S E E') {t : TId} (ht : S t) : IsStruct E' t ↔ IsStruct E t := by
  unfold IsStruct; simp only [h.hasFields ht]

theorem Shares.structOrPtr (h : Shares S E E') {t : TId} (ht : S t) : StructOrPtr E' t ↔ StructOrPtr E t := by
  unfold StructOrPtr
  rw [h.isStruct ht, h.same t ht]
  constructor
  · rintro (hl | ⟨e, he, hs⟩)
    · exact .inl hl
    · exact .inr ⟨e, he, (h.isStruct (h.parts t e ht (.ptr he))).mp hs⟩
  · rintro (hl | ⟨e, he, hs⟩)
    · exact .inl hl
    · exact .inr ⟨e, he, (h.isStruct (h.parts t e ht (.ptr he))).mpr hs⟩

theorem Shares.encodable (h : Shares S E E') {sf : FieldDef} (ht : S sf.typ) : Encodable E' sf ↔ Encodable E sf := by
  unfold Encodable; rw [h.structOrPtr ht]

variable {letter digit : Nat → Bool}

theorem Shares.promoted_in (h : Shares S E E') {sf : FieldDef} (ht : S sf.typ) {v : TId} {ptr : Bool}
    (hp : Promotes letter digit E sf v ptr) : S v := by
  obtain ⟨-, -, -, -, (⟨-, rfl⟩ | ⟨-, hk, -⟩)⟩ := hp
  · exact ht
  · exact h.parts _ _ ht (.ptr hk)

theorem Shares.promotes_mp (h : Shares S E E') {sf : FieldDef} (ht : S sf.typ) {v : TId} {ptr : Bool}
    (hp : Promotes letter digit E sf v ptr) : Promotes letter digit E' sf v ptr := by
  have hv := h.promoted_in ht hp
  obtain ⟨a, b, c, d, e⟩ := hp
  refine ⟨(h.encodable ht).mpr a, b, c, (h.isStruct hv).mpr d, ?_⟩
  rw [h.same _ ht]; exact e

theorem Shares.promotes (h : Shares S E E') {sf : FieldDef} (ht : S sf.typ) {v : TId} {ptr : Bool} :
    Promotes letter digit E' sf v ptr ↔ Promotes letter digit E sf v ptr :=
  ⟨h.symm.promotes_mp ht, h.promotes_mp ht⟩

theorem Shares.member (h : Shares S E E') {sf : FieldDef} (ht : S sf.typ) {n : Bytes} {tg : Bool} :
    Member letter digit E' sf n tg ↔ Member letter digit E sf n tg := by
  unfold Member
  simp only [h.encodable ht, h.promotes ht]

theorem Shares.get (h : Shares S E E') {u : TId} (hu : S u) {fs : List FieldDef} (hf : HasFields E u fs) {i : Nat} {sf : FieldDef}
    (hi : fs[i]? = some sf) : S sf.typ := h.fields u fs sf hu hf (List.mem_of_getElem? hi)

theorem Shares.reaches_in (h : Shares S E E') {t : TId} (ht : S t) {p : List Nat} {u : TId} {q : List (Nat × Bool)}
    (hr : Reaches letter digit E t p u q) : S u := by
  induction hr with
  | here => exact ht
  | step _ hf hi hp ih => exact h.promoted_in (h.get ih hf hi) hp

theorem Shares.reaches_mp (h : Shares S E E') {t : TId} (ht : S t) {p : List Nat} {u : TId} {q : List (Nat × Bool)}
    (hr : Reaches letter digit E t p u q) : Reaches letter digit E' t p u q := by
  induction hr with
  | here => exact .here
  | step hr hf hi hp ih =>
    have hu := h.reaches_in ht hr
    exact .step ih ((h.hasFields hu).mpr hf) hi (h.promotes_mp (h.get hu hf hi) hp)

theorem Shares.reaches (h : Shares S E E') {t : TId} (ht : S t) {p : List Nat} {u : TId} {q : List (Nat × Bool)} :
    Reaches letter digit E' t p u q ↔ Reaches letter digit E t p u q := ⟨h.symm.reaches_mp ht, h.reaches_mp ht⟩

theorem Shares.promoted_mp (h : Shares S E E') {t : TId} (ht : S t) {path : List Nat} {u : TId} {i : Nat} {sf : FieldDef} {n : Bytes}
    {tg : Bool} {r : List (Nat × Bool)} (hp : Promoted letter digit E t path u i sf n tg r) :
    Promoted letter digit E' t path u i sf n tg r := by
  obtain ⟨⟨p, q, hr, a, b⟩, ⟨fs, hf, hi⟩, hm⟩ := hp
  have hu := h.reaches_in ht hr
  exact ⟨⟨p, q, h.reaches_mp ht hr, a, b⟩, ⟨fs, (h.hasFields hu).mpr hf, hi⟩, (h.member (h.get hu hf hi)).mpr hm⟩

theorem Shares.promoted (h : Shares S E E') {t : TId} (ht : S t) {path : List Nat} {u : TId} {i : Nat} {sf : FieldDef} {n : Bytes}
    {tg : Bool} {r : List (Nat × Bool)} :
    Promoted letter digit E' t path u i sf n tg r ↔ Promoted letter digit E t path u i sf n tg r :=
  ⟨h.symm.promoted_mp ht, h.promoted_mp ht⟩

theorem Shares.canonical (h : Shares S E E') {t : TId} (ht : S t) {p : List Nat} {u : TId} :
    Canonical letter digit E' t p u ↔ Canonical letter digit E t p u := by
  unfold Canonical; simp only [h.reaches ht]

theorem Shares.canonical_in (h : Shares S E E') {t : TId} (ht : S t) {p : List Nat} {u : TId}
    (hc : Canonical letter digit E t p u) : S u := by
  obtain ⟨⟨q, hr⟩, -⟩ := hc; exact h.reaches_in ht hr

theorem Shares.push_mp (h : Shares S E E') {t : TId} (ht : S t) {a : List Nat} {u : TId}
    (hc : CanonicalPush letter digit E t a u) : CanonicalPush letter digit E' t a u := by
  obtain ⟨p, w, fs, i, sf, ptr, ha, hc, hf, hi, hp⟩ := hc
  have hw := h.canonical_in ht hc
  exact ⟨p, w, fs, i, sf, ptr, ha, (h.canonical ht).mpr hc, (h.hasFields hw).mpr hf, hi, h.promotes_mp (h.get hw hf hi) hp⟩

theorem Shares.push (h : Shares S E E') {t : TId} (ht : S t) {a : List Nat} {u : TId} :
    CanonicalPush letter digit E' t a u ↔ CanonicalPush letter digit E t a u := ⟨h.symm.push_mp ht, h.push_mp ht⟩

theorem Shares.chosen (h : Shares S E E') {t : TId} (ht : S t) {m : MField} :
    ChosenField letter digit E' t m ↔ ChosenField letter digit E t m := by
  unfold ChosenField PushedTwice
  simp only [h.promoted ht, h.canonical ht, h.push ht]

theorem Shares.queued_mp (h : Shares S E E') {t : TId} (ht : S t) {a : List Nat} {s : Nat × Bool}
    (hq : Queued letter digit E t a s) : Queued letter digit E' t a s := by
  obtain ⟨p, w, fs, i, sf, v, ptr, ha, hc, hf, hi, hp, hs, hb⟩ := hq
  have hw := h.canonical_in ht hc
  refine ⟨p, w, fs, i, sf, v, ptr, ha, (h.canonical ht).mpr hc, (h.hasFields hw).mpr hf, hi, h.promotes_mp (h.get hw hf hi) hp, hs, ?_⟩
  intro b hb'; exact hb b ((h.push ht).mp hb')

theorem Shares.queued (h : Shares S E E') {t : TId} (ht : S t) {a : List Nat} {s : Nat × Bool} :
    Queued letter digit E' t a s ↔ Queued letter digit E t a s := ⟨h.symm.queued_mp ht, h.queued_mp ht⟩

theorem Shares.apart (h : Shares S E E') {grow : Nat → Nat} {t : TId} (ht : S t) :
    RoutesApart letter digit grow E' t ↔ RoutesApart letter digit grow E t := by
  unfold RoutesApart OwnRoute LastQueued
  simp only [h.chosen ht, h.reaches ht, h.queued ht]

/-! ## Instructions -/

/-- The instruction names types of the set only. -/
inductive InsIn (S : TId → Prop) : Instr → Prop
  | goType {s} : InsIn S (.goType s)
  | marshaler {m t hp} : S t → InsIn S (.marshaler m t hp)
  | bool : InsIn S .bool
  | int {k} : InsIn S (.int k)
  | float {w} : InsIn S (.float w)
  | string : InsIn S .string
  | quotedString : InsIn S .quotedString
  | quoted {i} : InsIn S i → InsIn S (.quoted i)
  | nilText {i} : InsIn S i → InsIn S (.nilText i)
  | inline {i} : InsIn S i → InsIn S (.inline i)
  | iface : InsIn S .iface
  | struct {t ca} : S t → InsIn S (.struct t ca)
  | map {t ki vi} : InsIn S ki → InsIn S vi → InsIn S (.map t ki vi)
  | byteSlice : InsIn S .byteSlice
  | slice {i n} : InsIn S i → InsIn S (.slice i n)
  | array {i n len b} : InsIn S i → InsIn S (.array i n len b)
  | ptr {i} : InsIn S i → InsIn S (.ptr i)
  | unsupported {t} : InsIn S (.unsupported t)

theorem insIn_marshaler {t : TId} {ca : Bool} {i : Instr} (ht : S t) (h : newMarshalerTypeInstr E t ca = some i) : InsIn S i := by
  revert h
  simp only [newMarshalerTypeInstr]
  repeat' split
  all_goals first
    | (intro h; cases h; exact .marshaler ht)
    | (intro h; cases h)

theorem insIn_basic {k : Kind} {q : Bool} {i : Instr} (h : newBasicTypeInstr k q = some i) : InsIn S i := by
  cases k <;> simp only [newBasicTypeInstr, Option.some.injEq, reduceCtorEq] at h <;> subst h <;> split <;>
    first | exact .quoted .bool | exact .bool | exact .quotedString | exact .string | exact .quoted .int | exact .int | exact .quoted .float | exact .float

theorem Shares.marshaler (h : Shares S E E') {t : TId} (ht : S t) (ca : Bool) :
    newMarshalerTypeInstr E' t ca = newMarshalerTypeInstr E t ca := by
  simp only [newMarshalerTypeInstr, h.same t ht]

theorem Shares.newInstr (h : Shares S E E') : ∀ (fuel : Nat) (t : TId) (ca q : Bool), S t →
    newInstruction E' fuel t ca q = newInstruction E fuel t ca q ∧ ∀ i, newInstruction E fuel t ca q = some i → InsIn S i
  | 0, _, _, _, _ => ⟨rfl, fun i h => by simp [newInstruction] at h⟩
  | fuel + 1, t, ca, q, ht => by
    have ih := Shares.newInstr h fuel
    have eg : newGoTypeInstr E' t = newGoTypeInstr E t := by simp [newGoTypeInstr, h.same t ht]
    simp only [newInstruction, eg, h.marshaler ht, h.same t ht]
    cases hg : newGoTypeInstr E t with
    | some i =>
      refine ⟨rfl, fun j hj => ?_⟩
      cases hj
      simp only [newGoTypeInstr, Option.map_eq_some_iff] at hg
      obtain ⟨s, -, rfl⟩ := hg
      exact .goType
    | none =>
    cases hm : newMarshalerTypeInstr E t ca with
    | some i => exact ⟨rfl, fun j hj => by cases hj; exact insIn_marshaler ht hm⟩
    | none =>
    cases hb : newBasicTypeInstr (E t).kind q with
    | some i => exact ⟨rfl, fun j hj => by cases hj; exact insIn_basic hb⟩
    | none =>
    simp only
    cases hk : (E t).kind with
    | iface n => exact ⟨rfl, fun j hj => by cases hj; exact .iface⟩
    | struct fs => exact ⟨rfl, fun j hj => by cases hj; exact .struct ht⟩
    | other => exact ⟨rfl, fun j hj => by cases hj; exact .unsupported⟩
    | bool => exact ⟨rfl, fun j hj => by cases hj; exact .unsupported⟩
    | string => exact ⟨rfl, fun j hj => by cases hj; exact .unsupported⟩
    | int k => exact ⟨rfl, fun j hj => by cases hj; exact .unsupported⟩
    | float w => exact ⟨rfl, fun j hj => by cases hj; exact .unsupported⟩
    | map kt et =>
      have hkt := h.parts t kt ht (.key hk)
      have het := h.parts t et ht (.val hk)
      have e1 : mapKeyOk E' kt = mapKeyOk E kt := by simp only [mapKeyOk, h.same kt hkt]
      have e2 : ∀ i, wrapKey E' kt i = wrapKey E kt i := fun i => by simp only [wrapKey, h.same kt hkt]
      simp only [e1, e2, h.same kt hkt, (ih kt false false hkt).1, (ih et false false het).1]
      refine ⟨trivial, fun j hj => ?_⟩
      split at hj
      · cases hj; exact .unsupported
      · split at hj
        · rename_i ki vi h1 h2
          cases hj
          have hki : InsIn S ki := by
            split at h1
            · cases h1; exact .string
            · exact (ih kt false false hkt).2 ki h1
          refine .map ?_ ((ih et false false het).2 vi h2)
          simp only [wrapKey]
          split <;> split <;> first | exact .nilText (.quoted hki) | exact .quoted hki | exact .nilText hki | exact hki
        · cases hj
    | slice e =>
      have he := h.parts t e ht (.slice hk)
      have e1 : isByteElem E' e = isByteElem E e := by simp only [isByteElem, h.same e he]
      simp only [e1, h.same e he, (ih e true false he).1]
      refine ⟨trivial, fun j hj => ?_⟩
      split at hj
      · cases hj; exact .byteSlice
      · rw [Option.map_eq_some_iff] at hj
        obtain ⟨i, hi, rfl⟩ := hj
        exact .slice ((ih e true false he).2 i hi)
    | array n e =>
      have he := h.parts t e ht (.array hk)
      have e1 : isByteElem E' e = isByteElem E e := by simp only [isByteElem, h.same e he]
      simp only [e1, h.same e he, (ih e ca false he).1]
      refine ⟨trivial, fun j hj => ?_⟩
      rw [Option.map_eq_some_iff] at hj
      obtain ⟨i, hi, rfl⟩ := hj
      exact .array ((ih e ca false he).2 i hi)
    | ptr e =>
      have he := h.parts t e ht (.ptr hk)
      simp only [(ih e true q he).1]
      refine ⟨trivial, fun j hj => ?_⟩
      rw [Option.map_eq_some_iff] at hj
      obtain ⟨i, hi, rfl⟩ := hj
      exact .ptr ((ih e true q he).2 i hi)

theorem Shares.inlined (h : Shares S E E') : ∀ (fuel : Nat) (t : TId), S t → isInlined E' fuel t = isInlined E fuel t
  | 0, _, _ => rfl
  | fuel + 1, t, ht => by
    simp only [isInlined, h.same t ht]
    cases hk : (E t).kind with
    | struct fs =>
      match fs, hk with
      | [], _ => rfl
      | [f], hk => exact Shares.inlined h fuel f.typ (h.fields t [f] f ht hk (by simp))
      | _ :: _ :: _, _ => rfl
    | _ => rfl

theorem Shares.instrFor (h : Shares S E E') (fuel : Nat) {t : TId} (ht : S t) :
    Model.instrFor E' fuel t = Model.instrFor E fuel t ∧ ∀ i, Model.instrFor E fuel t = some i → InsIn S i := by
  have h1 := h.newInstr fuel t (isPtrK (E t).kind) false ht
  simp only [Model.instrFor, h.same t ht, h1.1, h.inlined fuel t ht]
  refine ⟨trivial, fun i hi => ?_⟩
  split at hi
  · cases hi
  · rename_i j hj
    cases hi
    split
    · exact .inline (h1.2 j hj)
    · exact h1.2 j hj

/-! ## The fields of structs -/

theorem Shares.scanTyp (h : Shares S E E') {sf : FieldDef} (ht : S sf.typ) :
    Model.scanTyp E' sf = Model.scanTyp E sf ∧ S (Model.scanTyp E sf) := by
  have hd := h.deref ht
  simp only [Model.scanTyp, h.same _ ht, hd.1]
  refine ⟨trivial, ?_⟩
  split
  · exact hd.2
  · exact ht

/-- The structs waiting are of types of the set. -/
def NextIn (S : TId → Prop) (l : List Pend) : Prop := ∀ f ∈ l, S f.typ

theorem Shares.scanField (h : Shares S E E') (U : UnicodeTab) (grow : Grow) (f : Pend) (cnt : TypeCount) (i : Nat) {sf : FieldDef}
    (ht : S sf.typ) (st : ScanSt) (hn : NextIn S st.next) :
    Model.scanField E' U grow f cnt i sf st = Model.scanField E U grow f cnt i sf st ∧
      NextIn S (Model.scanField E U grow f cnt i sf st).next := by
  have hd := h.deref ht
  have hs := h.scanTyp ht
  have e1 : shouldEncodeField E' sf = shouldEncodeField E sf := by
    simp only [shouldEncodeField, hd.1, h.same _ hd.2]
  have e2 : ∀ pre index name tagged opts, mkFld E' pre index sf name tagged opts = mkFld E pre index sf name tagged opts := by
    intros; simp only [mkFld, hs.1, h.same _ hs.2]
  simp only [Model.scanField, e1, e2, hs.1, h.same _ hs.2, h.same _ ht]
  refine ⟨trivial, ?_⟩
  have key : NextIn S (st.next ++ [⟨Model.scanTyp E sf, f.index ++ [i],
      (st.heap.append grow f.seqs ⟨sf.offset, isPtrK (E sf.typ).kind⟩).2⟩]) := by
    intro x hx
    rw [List.mem_append, List.mem_singleton] at hx
    rcases hx with hx | rfl
    · exact hn x hx
    · exact hs.2
  repeat' split
  all_goals first | exact hn | exact key

theorem Shares.scanFrom (h : Shares S E E') (U : UnicodeTab) (grow : Grow) (f : Pend) (cnt : TypeCount) : ∀ (fs : List FieldDef)
    (i : Nat) (st : ScanSt), (∀ sf ∈ fs, S sf.typ) → NextIn S st.next →
    Model.scanFrom E' U grow f cnt i fs st = Model.scanFrom E U grow f cnt i fs st ∧
      NextIn S (Model.scanFrom E U grow f cnt i fs st).next
  | [], _, st, _, hn => ⟨rfl, hn⟩
  | sf :: fs, i, st, hf, hn => by
    have h1 := h.scanField U grow f cnt i (hf sf (by simp)) st hn
    simp only [Model.scanFrom, h1.1]
    exact Shares.scanFrom h U grow f cnt fs (i + 1) _ (fun x hx => hf x (by simp [hx])) h1.2

theorem Shares.fieldsOf (h : Shares S E E') {t : TId} (ht : S t) : ∀ sf ∈ fieldsOfK (E t).kind, S sf.typ := by
  intro sf hsf
  cases hk : (E t).kind with
  | struct fs => rw [hk] at hsf; exact h.fields t fs sf ht hk hsf
  | _ => rw [hk] at hsf; simp [fieldsOfK] at hsf

theorem Shares.scanLevel (h : Shares S E E') (U : UnicodeTab) (grow : Grow) (cnt : TypeCount) : ∀ (l : List Pend) (seen : List TId)
    (st : ScanSt), NextIn S l → NextIn S st.next →
    Model.scanLevel E' U grow cnt l seen st = Model.scanLevel E U grow cnt l seen st ∧
      NextIn S (Model.scanLevel E U grow cnt l seen st).2.next
  | [], _, _, _, hn => ⟨rfl, hn⟩
  | f :: l, seen, st, hl, hn => by
    have hf := hl f (by simp)
    have hl' : NextIn S l := fun x hx => hl x (by simp [hx])
    have h1 := h.scanFrom U grow f cnt _ 0 st (h.fieldsOf hf) hn
    simp only [Model.scanLevel, scanFields, h.same _ hf, h1.1]
    split
    · exact Shares.scanLevel h U grow cnt l seen st hl' hn
    · exact Shares.scanLevel h U grow cnt l _ _ hl' h1.2

theorem Shares.bfs (h : Shares S E E') (U : UnicodeTab) (grow : Grow) : ∀ (fuel : Nat) (seen : List TId) (st : ScanSt),
    NextIn S st.next → Model.bfs E' U grow fuel seen st = Model.bfs E U grow fuel seen st
  | 0, _, _, _ => rfl
  | fuel + 1, seen, st, hn => by
    have h1 := h.scanLevel U grow st.ncnt st.next seen { flds := st.flds, next := [], ncnt := fun _ => 0, heap := st.heap } hn
      (fun x hx => by simp at hx)
    simp only [Model.bfs, h1.1]
    split
    · rfl
    · exact Shares.bfs h U grow fuel _ _ h1.2

theorem Shares.structFields (h : Shares S E E') (U : UnicodeTab) (grow : Grow) (sort : SortAlg) (fuel : Nat) {t : TId} (ht : S t) :
    Model.structFields E' U grow sort fuel t = Model.structFields E U grow sort fuel t := by
  simp only [Model.structFields]
  rw [h.bfs U grow fuel]
  intro x hx
  simp only [List.mem_singleton] at hx
  subst hx; exact ht

theorem Shares.byIndex (h : Shares S E E') : ∀ (is : List Nat) (t : TId), S t → typeByIndex E' t is = typeByIndex E t is ∧
    ∀ u, typeByIndex E t is = some u → S u
  | [], t, ht => ⟨rfl, fun u hu => by cases hu; exact ht⟩
  | i :: is, t, ht => by
    have hd := h.deref ht
    simp only [typeByIndex, hd.1, h.same _ hd.2]
    cases hi : (fieldsOfK (E (derefOnce E t)).kind)[i]? with
    | none => exact ⟨rfl, fun u hu => by cases hu⟩
    | some sf => exact Shares.byIndex h is sf.typ (h.fieldsOf hd.2 sf (List.mem_of_getElem? hi))

theorem Shares.fieldInstr (h : Shares S E E') (fuel : Nat) {t : TId} (ht : S t) (ca : Bool) (f : Fld) :
    newFieldInstr E' fuel t ca f = newFieldInstr E fuel t ca f ∧ ∀ fi, newFieldInstr E fuel t ca f = some fi → InsIn S fi.instr := by
  have h1 := h.byIndex f.index t ht
  simp only [newFieldInstr, h1.1]
  cases hu : typeByIndex E t f.index with
  | none => exact ⟨rfl, fun fi hfi => by cases hfi⟩
  | some u =>
    have hS := h1.2 u hu
    have hd := h.deref hS
    simp only [hd.1, h.same _ hd.2, h.same _ hS]
    have h2 := h.newInstr fuel u ca (f.quoted && isBasicK (E (derefOnce E u)).kind) hS
    rw [h2.1]
    refine ⟨rfl, fun fi hfi => ?_⟩
    split at hfi
    · cases hfi
    · rename_i i hi
      cases hfi
      exact h2.2 i hi

theorem mapM_all {α β : Type} {P : β → Prop} {f : α → Option β} : ∀ (l : List α) {r : List β},
    (∀ a b, f a = some b → P b) → l.mapM f = some r → ∀ b ∈ r, P b
  | [], r, _, h, b, hb => by simp at h; subst h; simp at hb
  | a :: l, r, hf, h, b, hb => by
    simp only [List.mapM_cons, Option.pure_def, Option.bind_eq_bind, Option.bind_eq_some_iff, Option.some.injEq] at h
    obtain ⟨x, hx, xs, hxs, rfl⟩ := h
    rw [List.mem_cons] at hb
    rcases hb with rfl | hb
    · exact hf a b hx
    · exact mapM_all l hf hxs b hb

theorem Shares.fieldsInstr (h : Shares S E E') (U : UnicodeTab) (grow : Grow) (sort : SortAlg) (fuel : Nat) {t : TId} (ht : S t) (ca : Bool) :
    structFieldsInstr E' U grow sort fuel t ca = structFieldsInstr E U grow sort fuel t ca ∧
      ∀ l, structFieldsInstr E U grow sort fuel t ca = some l → ∀ fi ∈ l, InsIn S fi.instr := by
  simp only [structFieldsInstr, h.structFields U grow sort fuel ht]
  have e : newFieldInstr E' fuel t ca = newFieldInstr E fuel t ca := funext fun f => (h.fieldInstr fuel ht ca f).1
  rw [e]
  refine ⟨rfl, fun l hl => ?_⟩
  split at hl
  · cases hl
  · exact mapM_all _ (fun f fi hfi => (h.fieldInstr fuel ht ca f).2 fi hfi) hl

end Jettison.Proofs
