import Verif.Proofs.Select
import Verif.Spec.Route

/-! # The offsets recorded for promoted fields -/

namespace Jettison.Proofs
open Jettison Jettison.Model Jettison.Spec

variable {E : Env} {U : UnicodeTab} {t : TId}

def Seq.pair (s : Seq) : Nat × Bool := (s.offset, s.indir)

/-- The path determines the route. -/
theorem reaches_functional (hU : TablesOk U.isLetter U.isDigit) {p : List Nat} {u : TId} {q : List (Nat × Bool)}
    (h1 : Reaches U.isLetter U.isDigit E t p u q) : ∀ {p' u' q'}, Reaches U.isLetter U.isDigit E t p' u' q' → p = p' →
      u = u' ∧ q = q' := by
  induction h1 with
  | here =>
    intro p' u' q' h2 he
    cases h2 with
    | here => exact ⟨rfl, rfl⟩
    | step h => simp at he
  | @step p u q fs i sf v ptr hr hf hi hp ih =>
    intro p' u' q' h2 he
    cases h2 with
    | here => simp at he
    | @step p2 u2 q2 fs2 i2 sf2 v2 ptr2 hr2 hf2 hi2 hp2 =>
      obtain ⟨rfl, rfl⟩ := append_single_inj he
      obtain ⟨rfl, rfl⟩ := ih hr2 rfl
      have : fs = fs2 := by
        unfold HasFields at hf hf2; rw [hf] at hf2; simpa using hf2
      subst this
      rw [hi] at hi2
      simp only [Option.some.injEq] at hi2
      subst hi2
      rw [← cls_embed hU] at hp hp2
      rw [hp] at hp2
      simp only [Cls.embed.injEq] at hp2
      obtain ⟨rfl, rfl⟩ := hp2
      exact ⟨rfl, rfl⟩

theorem capSeq_ge (grow : Nat → Nat) : ∀ n, n ≤ capSeq grow n
  | 0 => by simp
  | n + 1 => by
    have := capSeq_ge grow n
    simp only [capSeq]; split <;> omega

/-- The record carries its route. -/
def RouteOk (E : Env) (U : UnicodeTab) (t : TId) (f : Fld) : Prop :=
  ∃ u i sf, Promoted U.isLetter U.isDigit E t f.index u i sf f.name f.tag (f.embedSeq.map Seq.pair) ∧
    f = mkFld E f.embedSeq.dropLast f.index sf f.name f.tag (parseTag sf.tag).2

/-- Short paths are covered by the scanned and waiting structs. -/
theorem binv_cover {d : Nat} {log : List Scn} {seen : List TId} {st : ScanSt} (h : BInv E U t d log seen st) :
    ∀ {n : Node}, PathN E U t n →
      (∃ m ∈ log.map Scn.key ++ st.next.map Pend.key, m.1 = n.1 ∧ SLe m.2 n.2) ∨ d < n.2.length := by
  intro n hn
  induction hn with
  | root => exact Or.inl ⟨_, h.root, rfl, Or.inl rfl⟩
  | @step n x hn hx ih =>
    have hl := push_len hx
    rcases ih with ⟨m, hm, h1, h2⟩ | ih
    · rw [List.mem_append] at hm
      rcases hm with hm | hm
      · rw [List.mem_map] at hm
        obtain ⟨s, hs, rfl⟩ := hm
        obtain ⟨i, sf, ptr, e1, e2, e3⟩ := (pushOf_mem E U n x).mp hx
        have hx' : (x.1, s.index ++ [i]) ∈ pushOf E U s.key := by
          rw [pushOf_mem]
          refine ⟨i, sf, ptr, ?_, e2, rfl⟩
          rw [h1]; exact e1
        obtain ⟨m', hm', h3, h4⟩ := h.closed s hs _ hx'
        refine Or.inl ⟨m', hm', h3, h4.trans ?_⟩
        rw [e3]
        exact SLe.append h2 i
      · right
        have := (h.next_path m hm).2
        have := h2.len
        omega
    · right; omega

theorem binv_canonical (hU : TablesOk U.isLetter U.isDigit) {d : Nat} {log : List Scn} {seen : List TId} {st : ScanSt}
    (h : BInv E U t d log seen st) : ∀ p ∈ st.next, p.typ ∉ seen → Canonical U.isLetter U.isDigit E t p.index p.typ := by
  intro p hp hs
  have hk : Pend.key p ∈ st.next.map Pend.key := List.mem_map_of_mem hp
  obtain ⟨hpn, hpl⟩ := h.next_path _ hk
  refine ⟨(pathN_iff hU).mp hpn, ?_⟩
  intro p' q' hr
  have hr := (pathN_iff hU).mpr ⟨q', hr⟩
  simp only [Pend.key] at hpl
  rcases binv_cover h hr with ⟨m, hm, h1, h2⟩ | hlt
  · rw [List.mem_append] at hm
    rcases hm with hm | hm
    · exfalso
      apply hs
      rw [h.seen_iff]
      rw [List.mem_map] at hm ⊢
      obtain ⟨s, hs', rfl⟩ := hm
      exact ⟨s, hs', h1⟩
    · have : m = Pend.key p := by
        have hnd := h.next_nodup
        generalize st.next.map Pend.key = L at hm hk hnd
        clear hs h
        induction L with
        | nil => simp at hm
        | cons a L ih =>
          simp only [List.map_cons, List.nodup_cons, List.mem_map, not_exists, not_and] at hnd
          simp only [List.mem_cons] at hm hk
          rcases hm with rfl | hm
          · rcases hk with hk | hk
            · exact hk.symm
            · exact absurd h1.symm (hnd.1 (Pend.key p) hk)
          · rcases hk with rfl | hk
            · exact absurd h1 (hnd.1 _ hm)
            · exact ih hm hk hnd.2
      subst this
      rcases h2 with h | h | h
      · exact Or.inl h.symm
      · exact Or.inr (Or.inl h)
      · exact Or.inr (Or.inr h)
  · simp only at hlt; exact Or.inr (Or.inl (by omega))

theorem structFields_sub {grow : Grow} {sort : SortAlg} (hsort : SortOk sort) {fuel : Nat} {l : List Fld}
    (h : structFields E U grow sort fuel t = some l) : ∃ flds, bfs E U grow fuel []
      { flds := [], next := [⟨t, [], ⟨0, 0⟩⟩], ncnt := fun _ => 0, heap := [[]] } = some flds ∧ ∀ f ∈ l, f ∈ flds := by
  unfold structFields at h
  split at h
  · cases h
  · rename_i flds hb
    simp only [Option.some.injEq] at h
    refine ⟨flds, hb, ?_⟩
    intro f hf
    have hperm := hsort.perm (fun x y : Fld => indexLess x.index y.index) (filterByVisibility (sort fldLess flds))
    rw [h] at hperm
    rw [hperm.mem_iff, select_mem hsort] at hf
    exact selected_mem hf

end Jettison.Proofs
