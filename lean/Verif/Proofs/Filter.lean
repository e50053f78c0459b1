import Verif.Proofs.Sort

/-! # `filterByVisibility` keeps exactly the dominant fields -/

namespace Jettison.Proofs
open Jettison Jettison.Model Jettison.Spec

/-- The filter without the in-place array. -/
def filt : Nat → List Fld → List Fld
  | 0, _ => []
  | _ + 1, [] => []
  | n + 1, fi :: t =>
    (dominantField (fi :: t.take (runLen fi.name t))).toList ++ filt n (t.drop (runLen fi.name t))

theorem runLen_le (nm : Bytes) : ∀ t, runLen nm t ≤ t.length
  | [] => by simp [runLen]
  | f :: t => by
    have := runLen_le nm t
    simp only [runLen]; split <;> simp <;> omega

theorem runLen_take (nm : Bytes) : ∀ t : List Fld, ∀ g ∈ t.take (runLen nm t), g.name = nm
  | [] => by simp
  | f :: t => by
    have ih := runLen_take nm t
    simp only [runLen]
    split
    · simp
    · rename_i h
      simp only [ne_eq, Decidable.not_not] at h
      intro g hg
      simp only [List.take_succ_cons, List.mem_cons] at hg
      rcases hg with rfl | hg
      · exact h
      · exact ih g hg

theorem runLen_drop (nm : Bytes) : ∀ (t : List Fld) b B, t.drop (runLen nm t) = b :: B → b.name ≠ nm
  | [] => by simp
  | f :: t => by
    have ih := runLen_drop nm t
    simp only [runLen]
    split
    · rename_i h
      intro b B hb
      simp at hb
      rw [← hb.1]; exact h
    · intro b B hb
      exact ih b B (by simpa using hb)

theorem filterLoop_eq : ∀ (fuel : Nat) (arr : List Fld) (w i : Nat), w ≤ i →
    filterLoop fuel arr w i = arr.take w ++ filt fuel (arr.drop i)
  | 0, arr, w, i, h => by simp [filterLoop, filt]
  | fuel + 1, arr, w, i, h => by
    rw [filterLoop]
    cases hd : arr.drop i with
    | nil => simp [filt]
    | cons fi t =>
      have hi : i < arr.length := by
        rcases Nat.lt_or_ge i arr.length with h' | h'
        · exact h'
        · rw [List.drop_eq_nil_of_le h'] at hd; cases hd
      have hw : w < arr.length := by omega
      have hset : ∀ x, (arr.set w x).take (w + 1) = arr.take w ++ [x] := by
        intro x
        rw [List.take_succ, List.take_set_of_le (Nat.le_refl _)]
        simp [hw]
      have hdrop : ∀ x k, w < k → (arr.set w x).drop k = arr.drop k := by
        intro x k hk
        rw [List.drop_set_of_lt hk]
      have hd2 : arr.drop (i + (runLen fi.name t + 1)) = t.drop (runLen fi.name t) := by
        rw [← List.drop_drop, hd]; simp
      have hsl : filterLoop.slice' arr i (i + (runLen fi.name t + 1)) = fi :: t.take (runLen fi.name t) := by
        simp only [filterLoop.slice']
        rw [List.drop_take, hd]
        have : i + (runLen fi.name t + 1) - i = runLen fi.name t + 1 := by omega
        rw [this]; simp
      simp only
      rw [filt, hsl]
      split
      · rename_i h1
        have h0 : runLen fi.name t = 0 := by omega
        rw [filterLoop_eq fuel _ _ _ (by omega), hset, hdrop _ _ (by omega), hd2, h0]
        simp [dominantField]
      · split
        · rename_i hdom
          rw [filterLoop_eq fuel _ _ _ (by omega), hset, hdrop _ _ (by omega), hd2, hdom]
          simp
        · rename_i hdom
          rw [filterLoop_eq fuel _ _ _ (by omega), hd2, hdom]
          simp

theorem filterByVisibility_eq (l : List Fld) : filterByVisibility l = filt l.length l := by
  simp [filterByVisibility, filterLoop_eq]

/-- Less deep, or as deep and tagged against untagged. -/
def Beats (f g : Fld) : Prop :=
  f.index.length < g.index.length ∨ (f.index.length = g.index.length ∧ f.tag = true ∧ g.tag = false)

theorem beats_less {f g : Fld} (hn : g.name = f.name) (h : Beats f g) : fldLess f g = true := by
  rcases h with h | ⟨h1, h2, h3⟩
  · have : ¬ f.index.length = g.index.length := by omega
    simp [fldLess, hn, this, h]
  · simp [fldLess, hn, h1, h2, h3]

theorem not_less_cases {f g : Fld} (hn : g.name = f.name) (h : fldLess g f = false) :
    f.index.length < g.index.length ∨ (f.index.length = g.index.length ∧ (f.tag = true ∨ g.tag = false)) := by
  simp only [fldLess, hn, ne_eq, not_true_eq_false, if_false] at h
  by_cases l : g.index.length = f.index.length
  · right
    refine ⟨l.symm, ?_⟩
    simp only [l, not_true_eq_false, if_false] at h
    by_cases t : g.tag = f.tag
    · cases hf : f.tag
      · right; rw [t, hf]
      · left; rfl
    · simp only [t, not_false_eq_true, if_true] at h
      right; exact h
  · simp only [l, not_false_eq_true, if_true, decide_eq_false_iff_not] at h
    left; omega

/-- Sorted lists of fields. -/
abbrev Sorted (l : List Fld) : Prop := l.Pairwise (fun a b => fldLess b a = false)

theorem rest_names {fi b : Fld} {B : List Fld} (h1 : b.name ≠ fi.name) (hs : Sorted (fi :: b :: B)) :
    ∀ g ∈ b :: B, g.name ≠ fi.name := by
  intro g hg hn
  simp only [List.pairwise_cons] at hs
  obtain ⟨hfi, hb, -⟩ := hs
  have e1 := hfi b List.mem_cons_self
  simp only [fldLess, h1, ne_eq, not_false_eq_true, if_true] at e1
  have e2 : bytesLess fi.name b.name = true := by
    cases h : bytesLess fi.name b.name
    · exact absurd (bytesLess_total _ _ e1 h) h1
    · rfl
  simp only [List.mem_cons] at hg
  rcases hg with rfl | hg
  · exact h1 hn
  · have e3 := hb g hg
    have h2 : ¬ g.name = b.name := by rw [hn]; exact fun h => h1 h.symm
    rw [fldLess, if_pos h2, hn, e2] at e3; cases e3

theorem dominant_iff {fi : Fld} {A : List Fld} (hn : ∀ g ∈ A, g.name = fi.name) (hs : Sorted (fi :: A)) (f : Fld) :
    dominantField (fi :: A) = some f ↔ f = fi ∧ ∀ g ∈ A, Beats fi g := by
  cases A with
  | nil => simp [dominantField]; exact eq_comm
  | cons a A =>
    simp only [List.pairwise_cons] at hs
    obtain ⟨hfi, ha, -⟩ := hs
    have c1 := not_less_cases (hn a List.mem_cons_self) (hfi a List.mem_cons_self)
    simp only [dominantField]
    by_cases tie : fi.index.length = a.index.length ∧ fi.tag = a.tag
    · simp only [tie, decide_true, Bool.and_self, if_true]
      constructor
      · intro h; cases h
      · rintro ⟨-, h⟩
        have := h a List.mem_cons_self
        rcases this with h' | ⟨-, h1, h2⟩
        · omega
        · rw [tie.2, h2] at h1; cases h1
    · have : (decide (fi.index.length = a.index.length) && decide (fi.tag = a.tag)) = false := by
        simp only [Bool.and_eq_false_iff, decide_eq_false_iff_not]
        rcases Decidable.em (fi.index.length = a.index.length) with h | h
        · right; exact fun h2 => tie ⟨h, h2⟩
        · left; exact h
      simp only [this, Bool.false_eq_true, if_false, Option.some.injEq]
      have ba : Beats fi a := by
        rcases c1 with h | ⟨h, h2⟩
        · left; exact h
        · right
          refine ⟨h, ?_⟩
          have h3 : fi.tag ≠ a.tag := fun h3 => tie ⟨h, h3⟩
          rcases h2 with h2 | h2
          · refine ⟨h2, ?_⟩
            rw [h2] at h3
            cases hh : a.tag
            · rfl
            · rw [hh] at h3; exact absurd rfl h3
          · refine ⟨?_, h2⟩
            rw [h2] at h3
            cases hh : fi.tag
            · rw [hh] at h3; exact absurd rfl h3
            · rfl
      constructor
      · intro h
        refine ⟨h.symm, ?_⟩
        intro g hg
        simp only [List.mem_cons] at hg
        rcases hg with rfl | hg
        · exact ba
        · have c2 := not_less_cases (f := a) (g := g)
            ((hn g (List.mem_cons_of_mem _ hg)).trans (hn a List.mem_cons_self).symm) (ha g hg)
          rcases ba with b1 | ⟨b1, b2, b3⟩
          · left; rcases c2 with c2 | ⟨c2, -⟩ <;> omega
          · rcases c2 with c2 | ⟨c2, c3⟩
            · left; omega
            · right
              refine ⟨by omega, b2, ?_⟩
              rcases c3 with c3 | c3
              · rw [b3] at c3; cases c3
              · exact c3
      · rintro ⟨h, -⟩; exact h.symm

theorem filt_mem : ∀ (n : Nat) (S : List Fld), S.length ≤ n → Sorted S → ∀ f,
    (f ∈ filt n S ↔ ∃ l1 l2, S = l1 ++ f :: l2 ∧ ∀ g ∈ l1 ++ l2, g.name = f.name → Beats f g)
  | 0, S, hl, hs, f => by
    have : S = [] := List.eq_nil_of_length_eq_zero (by omega)
    subst this; simp [filt]
  | n + 1, [], hl, hs, f => by simp [filt]
  | n + 1, fi :: t, hl, hs, f => by
    rw [filt]
    have hAB : t = t.take (runLen fi.name t) ++ t.drop (runLen fi.name t) := (List.take_append_drop _ _).symm
    have hA := runLen_take fi.name t
    have hBd := runLen_drop fi.name t
    generalize t.take (runLen fi.name t) = A at *
    generalize t.drop (runLen fi.name t) = B at *
    subst hAB
    have hsA : Sorted (fi :: A) := by
      have : Sorted ((fi :: A) ++ B) := by simpa using hs
      exact (List.pairwise_append.mp this).1
    have hsB : Sorted B := by
      have : Sorted ((fi :: A) ++ B) := by simpa using hs
      exact (List.pairwise_append.mp this).2.1
    have hB : ∀ g ∈ B, g.name ≠ fi.name := by
      cases B with
      | nil => simp
      | cons b B =>
        have h1 := hBd b B rfl
        refine rest_names h1 ?_
        refine List.Pairwise.sublist ?_ hs
        exact List.Sublist.cons_cons fi (List.sublist_append_right A (b :: B))
    have ih := filt_mem n B (by simp at hl; omega) hsB f
    rw [List.mem_append, Option.mem_toList, dominant_iff hA hsA, ih]
    constructor
    · rintro (⟨rfl, hb⟩ | ⟨l1, l2, rfl, hb⟩)
      · refine ⟨[], A ++ B, by simp, ?_⟩
        intro g hg hn
        simp only [List.nil_append, List.mem_append] at hg
        rcases hg with hg | hg
        · exact hb g hg
        · exact absurd hn (hB g hg)
      · refine ⟨fi :: A ++ l1, l2, by simp, ?_⟩
        have hf : f.name ≠ fi.name := hB f (by simp)
        intro g hg hn
        simp only [List.cons_append, List.append_assoc, List.mem_cons, List.mem_append] at hg
        rcases hg with rfl | hg | hg | hg
        · exact absurd hn.symm hf
        · exact absurd (hn.symm.trans (hA g hg)) hf
        · exact hb g (by simp [hg]) hn
        · exact hb g (by simp [hg]) hn
    · rintro ⟨l1, l2, hS, hb⟩
      by_cases hf : f.name = fi.name
      · left
        cases l1 with
        | nil =>
          simp only [List.nil_append, List.cons.injEq] at hS
          obtain ⟨rfl, rfl⟩ := hS
          refine ⟨rfl, fun g hg => hb g (by simp [hg]) (hA g hg)⟩
        | cons x l1 =>
          simp only [List.cons_append, List.cons.injEq] at hS
          obtain ⟨rfl, hS⟩ := hS
          have h1 : fldLess f fi = false := by
            simp only [List.pairwise_cons] at hs
            exact hs.1 f (by rw [hS]; simp)
          have h2 := beats_less hf.symm (hb fi (by simp) hf.symm)
          rw [h1] at h2; cases h2
      · right
        have hS' : (fi :: A) ++ B = l1 ++ f :: l2 := by simpa using hS
        rw [List.append_eq_append_iff] at hS'
        rcases hS' with ⟨as, h1, h2⟩ | ⟨bs, h1, h2⟩
        · refine ⟨as, l2, h2, ?_⟩
          intro g hg hn
          refine hb g ?_ hn
          rw [h1]
          simp only [List.mem_append] at hg ⊢
          rcases hg with hg | hg
          · left; right; exact hg
          · right; exact hg
        · cases bs with
          | nil =>
            simp only [List.append_nil, List.nil_append] at h1 h2
            refine ⟨[], l2, by simpa using h2.symm, ?_⟩
            intro g hg hn
            exact hb g (by simp at hg; simp [hg]) hn
          | cons b bs =>
            simp only [List.cons_append, List.cons.injEq] at h2
            obtain ⟨rfl, -⟩ := h2
            have : f ∈ fi :: A := by rw [h1]; simp
            simp only [List.mem_cons] at this
            rcases this with rfl | h
            · exact absurd rfl hf
            · exact absurd (hA f h) hf

theorem filt_sub (n : Nat) (S : List Fld) : ∀ f ∈ filt n S, f ∈ S := by
  induction n generalizing S with
  | zero => simp [filt]
  | succ n ih =>
    cases S with
    | nil => simp [filt]
    | cons fi t =>
      intro f hf
      rw [filt, List.mem_append, Option.mem_toList] at hf
      rcases hf with hf | hf
      · cases hk : t.take (runLen fi.name t) with
        | nil => rw [hk] at hf; simp only [dominantField, Option.some.injEq] at hf; simp [hf]
        | cons a A =>
          rw [hk] at hf
          simp only [dominantField] at hf
          split at hf
          · cases hf
          · simp only [Option.some.injEq] at hf; simp [hf]
      · exact List.mem_cons_of_mem _ (List.drop_subset _ _ (ih _ f hf))

theorem filt_names : ∀ (n : Nat) (S : List Fld), S.length ≤ n → Sorted S →
    (filt n S).Pairwise (fun a b => a.name ≠ b.name)
  | 0, S, hl, hs => by simp [filt]
  | n + 1, [], hl, hs => by simp [filt]
  | n + 1, fi :: t, hl, hs => by
    rw [filt]
    have hAB : t = t.take (runLen fi.name t) ++ t.drop (runLen fi.name t) := (List.take_append_drop _ _).symm
    have hA := runLen_take fi.name t
    have hBd := runLen_drop fi.name t
    generalize t.take (runLen fi.name t) = A at *
    generalize t.drop (runLen fi.name t) = B at *
    subst hAB
    have hsB : Sorted B := by
      have : Sorted ((fi :: A) ++ B) := by simpa using hs
      exact (List.pairwise_append.mp this).2.1
    have hB : ∀ g ∈ B, g.name ≠ fi.name := by
      cases B with
      | nil => simp
      | cons b B =>
        have h1 := hBd b B rfl
        refine rest_names h1 ?_
        refine List.Pairwise.sublist ?_ hs
        exact List.Sublist.cons_cons fi (List.sublist_append_right A (b :: B))
    have ih := filt_names n B (by simp at hl; omega) hsB
    rw [List.pairwise_append]
    refine ⟨?_, ih, ?_⟩
    · cases dominantField (fi :: A) <;> simp
    · intro a ha b hb
      have hsA : Sorted (fi :: A) := by
        have : Sorted ((fi :: A) ++ B) := by simpa using hs
        exact (List.pairwise_append.mp this).1
      rw [Option.mem_toList, dominant_iff hA hsA] at ha
      rw [ha.1]
      exact fun h => hB b (filt_sub n B b hb) h.symm

/-- The selection, as a statement about the multiset of candidate fields. -/
theorem select_mem {sort : SortAlg} (hsort : SortOk sort) (l : List Fld) (f : Fld) :
    f ∈ filterByVisibility (sort fldLess l) ↔
      ∃ rest, l.Perm (f :: rest) ∧ ∀ g ∈ rest, g.name = f.name → Beats f g := by
  rw [filterByVisibility_eq, filt_mem _ _ (Nat.le_refl _) (hsort.sorted _ _ strictWeak_fld)]
  have hp := hsort.perm fldLess l
  constructor
  · rintro ⟨l1, l2, h, hb⟩
    refine ⟨l1 ++ l2, ?_, hb⟩
    rw [h] at hp
    exact hp.symm.trans List.perm_middle
  · rintro ⟨rest, h, hb⟩
    have hp2 := hp.trans h
    have hm : f ∈ sort fldLess l := hp2.mem_iff.mpr List.mem_cons_self
    obtain ⟨l1, l2, hl⟩ := List.append_of_mem hm
    refine ⟨l1, l2, hl, ?_⟩
    rw [hl] at hp2
    have hp3 : (l1 ++ l2).Perm rest := List.Perm.cons_inv (List.perm_middle.symm.trans hp2)
    intro g hg
    exact hb g (hp3.mem_iff.mp hg)

theorem select_names {sort : SortAlg} (hsort : SortOk sort) (l : List Fld) :
    (filterByVisibility (sort fldLess l)).Pairwise (fun a b => a.name ≠ b.name) := by
  rw [filterByVisibility_eq]
  exact filt_names _ _ (Nat.le_refl _) (hsort.sorted _ _ strictWeak_fld)

end Jettison.Proofs
