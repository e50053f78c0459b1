import Verif.Proofs.Reads

/-! # Following the offsets of a promoted field reads that field -/

namespace Jettison.Proofs
open Jettison Jettison.Model Jettison.Spec

variable {E : Env} {U : UnicodeTab} {m : Mem} {pt : TId → TId} {t : TId}

theorem walk_append (m : Mem) : ∀ (a b : List Seq) (p : Loc), walk m (a ++ b) p =
    match walk m a p with | some (some q) => walk m b q | some none => some none | none => none
  | [], b, p => by simp [walk]
  | s :: a, b, p => by
    simp only [List.cons_append, walk]
    split
    · split
      · simp
      · split
        · simp
        · rw [walk_append m a b]
    · rw [walk_append m a b]

theorem follow_append : ∀ (a b : List Nat) (v : Val), follow (a ++ b) v =
    match follow a v with | some (some x) => follow b x | some none => some none | none => none
  | [], b, v => by simp [follow]
  | i :: a, b, v => by
    cases v <;> simp only [List.cons_append, follow]
    next vs =>
    split
    · simp
    · rw [follow_append a b]
    · rw [follow_append a b]
    · simp

theorem typeByIndex_append : ∀ (a b : List Nat) (t : TId), typeByIndex E t (a ++ b) =
    match typeByIndex E t a with | some u => typeByIndex E u b | none => none
  | [], b, t => by simp [typeByIndex]
  | i :: a, b, t => by
    simp only [List.cons_append, typeByIndex]
    split
    · rw [typeByIndex_append a b]
    · simp

/-- A location inside the heap. -/
def InHeap (p : Loc) : Prop := ∃ a, a ≠ 0 ∧ p = .heap a

theorem inHeap_add {p : Loc} (h : InHeap p) (n : Nat) : InHeap (p.add n) := by
  obtain ⟨a, ha, rfl⟩ := h
  exact ⟨a + n, fun h => ha (Nat.eq_zero_of_add_eq_zero_right h), rfl⟩

theorem special_none (G : GoTypes E pt) {u : TId} {fs : List FieldDef} (hk : (E u).kind = .struct fs) {sf : FieldDef}
    (hm : sf ∈ fs) (he : Encodable E sf) : (E u).special = none := by
  cases hs : (E u).special with
  | none => rfl
  | some s =>
    exfalso
    cases s with
    | duration => have := G.duration _ hs; simp [hk] at this
    | number => have := G.number _ hs; simp [hk] at this
    | rawMessage => obtain ⟨e, h, _⟩ := G.rawMessage _ hs; simp [hk] at h
    | time => obtain ⟨e, h, h2⟩ := G.time _ hs; rw [hk] at h; simp at h; subst h; exact h2 _ hm he
    | syncMap => obtain ⟨e, h, h2⟩ := G.syncMap _ hs; rw [hk] at h; simp at h; subst h; exact h2 _ hm he

theorem derefOnce_struct {u : TId} (h : IsStruct E u) : derefOnce E u = u := by
  obtain ⟨fs, h⟩ := h
  simp only [HasFields] at h
  simp [derefOnce, h]

/-- The two ways of looking for an embedded struct agree. -/
inductive Agree (E : Env) (m : Mem) (l : Loc) (u : TId) : Option (Option Loc) → Option (Option Val) → Prop
  | nil : Agree E m l u (some none) (some none)
  | found {l' v'} : Repr E m u l' v' → (InHeap l → InHeap l') → Agree E m l u (some (some l')) (some (some v'))

theorem walk_follow (G : GoTypes E pt) {l : Loc} {v : Val} (hv : Repr E m t l v) {p : List Nat} {u : TId}
    {q : List (Nat × Bool)} (hr : Reaches U.isLetter U.isDigit E t p u q) : ∀ {ss : List Seq}, ss.map Seq.pair = q →
      Agree E m l u (walk m ss l) (follow p v) := by
  induction hr with
  | here => intro ss hss; simp at hss; subst hss; exact .found hv id
  | @step p u q fs i sf w ptr hr hfs hi hp ih =>
    intro ss hss
    obtain ⟨ss1, ss2, rfl, h1, h2⟩ := List.map_eq_append_iff.mp hss
    obtain ⟨s, rfl, hs⟩ : ∃ s, ss2 = [s] ∧ Seq.pair s = (sf.offset, ptr) := by
      cases ss2 with
      | nil => simp at h2
      | cons a t => cases t with
        | nil => simp at h2; exact ⟨a, rfl, h2⟩
        | cons b t => simp at h2
    simp only [Seq.pair, Prod.mk.injEq] at hs
    have ih := ih h1
    rw [walk_append, follow_append]
    generalize walk m ss1 l = A at ih ⊢
    generalize follow p v = B at ih ⊢
    cases ih with
    | nil => exact .nil
    | @found l' v' hrep hheap =>
      simp only
      have hmem : sf ∈ fs := List.mem_of_getElem? hi
      obtain ⟨vs, rfl, hlen, hvs⟩ := repr_struct hfs (special_none G hfs hmem hp.1) hrep
      obtain ⟨hlt, -⟩ := List.getElem?_eq_some_iff.mp hi
      have hx : vs[i]? = some vs[i] := by rw [List.getElem?_eq_getElem]
      have hxr := hvs i sf _ hi hx
      simp only [walk, follow, hx, hs.1, hs.2]
      obtain ⟨-, -, -, hst, ⟨rfl, rfl⟩ | ⟨rfl, hkp, -⟩⟩ := hp
      · obtain ⟨gs, hgs⟩ := hst
        simp only [Bool.false_eq_true, if_false]
        have : ∀ y, vs[i] = y → (∀ z, y ≠ .ptr z) ∧ y ≠ .nil := by
          intro y hy
          rw [hy] at hxr
          refine ⟨?_, ?_⟩
          · rintro z rfl
            cases hxr <;> simp_all [HasFields]
          · rintro rfl
            cases hxr <;> simp_all [HasFields]
        have hy := this _ rfl
        split
        · next h => simp at h; exact absurd h hy.2
        · next z h => simp at h; exact absurd h (hy.1 z)
        · next h => simp at h; subst h; exact .found hxr fun h => inHeap_add (hheap h) _
        · next h => simp at h
      · simp only [if_true]
        rcases repr_ptr G hkp hxr with ⟨h0, hat⟩ | ⟨a, y, h0, hat, ha, hy⟩
        · simp only [readWord, hat, h0]
          simpa using Agree.nil
        · simp only [readWord, hat, h0, ha, if_false]
          exact .found hy fun _ => ⟨a, ha, rfl⟩

theorem reaches_type {p : List Nat} {u : TId} {q : List (Nat × Bool)} (ht : IsStruct E t)
    (hr : Reaches U.isLetter U.isDigit E t p u q) : ∃ w, typeByIndex E t p = some w ∧ derefOnce E w = u := by
  induction hr with
  | here => exact ⟨t, rfl, derefOnce_struct ht⟩
  | @step p u q fs i sf w ptr hr hfs hi hp ih =>
    obtain ⟨x, hx, hd⟩ := ih
    simp only [HasFields] at hfs
    refine ⟨sf.typ, ?_, ?_⟩
    · rw [typeByIndex_append, hx]
      simp [typeByIndex, hd, hfs, fieldsOfK, hi]
    · obtain ⟨-, -, -, hst, ⟨rfl, rfl⟩ | ⟨rfl, hkp, -⟩⟩ := hp
      · exact derefOnce_struct hst
      · simp [derefOnce, hkp]

theorem promoted_type {path : List Nat} {u : TId} {i : Nat} {sf : FieldDef} {name : Bytes} {tg : Bool}
    {r : List (Nat × Bool)} (ht : IsStruct E t) (h : Promoted U.isLetter U.isDigit E t path u i sf name tg r) :
    typeByIndex E t path = some sf.typ := by
  obtain ⟨p, q, hr, rfl, -⟩ := h.reach
  obtain ⟨fs, hfs, hi⟩ := h.decl
  obtain ⟨w, hw, hd⟩ := reaches_type ht hr
  simp only [HasFields] at hfs
  rw [typeByIndex_append, hw]
  simp [typeByIndex, hd, hfs, fieldsOfK, hi]

/-- The recorded offsets lead to the value of the field, or to a nil pointer on the way. -/
theorem walk_route (G : GoTypes E pt) {l : Loc} {v : Val} (hv : Repr E m t l v) {path : List Nat} {u : TId} {i : Nat}
    {sf : FieldDef} {name : Bytes} {tg : Bool} {ss : List Seq}
    (h : Promoted U.isLetter U.isDigit E t path u i sf name tg (ss.map Seq.pair)) :
    Agree E m l sf.typ (walk m ss l) (routeV v path) := by
  obtain ⟨p, q, hr, rfl, hq⟩ := h.reach
  obtain ⟨fs, hfs, hi⟩ := h.decl
  obtain ⟨ss1, ss2, rfl, h1, h2⟩ := List.map_eq_append_iff.mp hq
  obtain ⟨s, rfl, hs⟩ : ∃ s, ss2 = [s] ∧ Seq.pair s = (sf.offset, false) := by
    cases ss2 with
    | nil => simp at h2
    | cons a t => cases t with
      | nil => simp at h2; exact ⟨a, rfl, h2⟩
      | cons b t => simp at h2
  simp only [Seq.pair, Prod.mk.injEq] at hs
  have ih := walk_follow (U := U) G hv hr h1
  rw [walk_append]
  simp only [routeV, List.dropLast_concat, List.getLast?_append, List.getLast?_singleton]
  generalize walk m ss1 l = A at ih ⊢
  generalize follow p v = B at ih ⊢
  cases ih with
  | nil => exact .nil
  | @found l' v' hrep hheap =>
    simp only
    have hmem : sf ∈ fs := List.mem_of_getElem? hi
    obtain ⟨vs, rfl, hlen, hvs⟩ := repr_struct hfs (special_none G hfs hmem h.member.1) hrep
    obtain ⟨hlt, -⟩ := List.getElem?_eq_some_iff.mp hi
    have hx : vs[i]? = some vs[i] := by rw [List.getElem?_eq_getElem]
    have hxr := hvs i sf _ hi hx
    simp only [walk, hs.1, hs.2, Option.some_or, hx]
    simp
    exact .found hxr fun h => inHeap_add (hheap h) _

end Jettison.Proofs
