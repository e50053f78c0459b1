import Verif.Proofs.Route

/-! # What is recorded as the route of a field, for every type graph -/

namespace Jettison.Proofs
open Jettison Jettison.Model Jettison.Spec

variable {E : Env} {U : UnicodeTab} {t : TId}

theorem madeAt_exists (grow : Nat → Nat) : ∀ j, ∃ m, MadeAt grow j m
  | 0 => ⟨0, Nat.le_refl _, by simp [capSeq], fun n h1 h2 => by omega⟩
  | j + 1 => by
    by_cases h : capSeq grow (j + 1) ≤ j + 1
    · exact ⟨j + 1, Nat.le_refl _, h, fun n h1 h2 => by omega⟩
    · obtain ⟨m, h1, h2, h3⟩ := madeAt_exists grow j
      refine ⟨m, by omega, h2, ?_⟩
      intro n hn1 hn2
      by_cases hn : n = j + 1
      · subst hn; omega
      · exact h3 n hn1 (by omega)

theorem madeAt_self {grow : Nat → Nat} {j m : Nat} (h : MadeAt grow j m) (hc : capSeq grow j ≤ j) : m = j := by
  obtain ⟨h1, -, h3⟩ := h
  by_cases hm : m = j
  · exact hm
  · have := h3 j (by omega) (Nat.le_refl _); omega

theorem madeAt_pred {grow : Nat → Nat} {j m : Nat} (h : MadeAt grow (j + 1) m) (hc : j + 1 < capSeq grow (j + 1)) : MadeAt grow j m := by
  obtain ⟨h1, h2, h3⟩ := h
  have : m ≠ j + 1 := by rintro rfl; omega
  exact ⟨by omega, h2, fun n hn1 hn2 => h3 n hn1 (by omega)⟩

/-- A waiting struct was pushed by the field of a struct of the level. -/
def PushedBy (E : Env) (U : UnicodeTab) (f c : Pend) (s : Seq) : Prop :=
  ∃ i sf ptr, c.index = f.index ++ [i] ∧ (nodeFields E f.typ)[i]? = some sf ∧ cls E U sf = .embed c.typ ptr ∧ s = ⟨sf.offset, ptr⟩

/-- While a level is scanned: the arrays of the level keep their first `d` entries,
and entry `d` of a shared array is that of the last struct pushed into it. -/
structure MInv (E : Env) (U : UnicodeTab) (grow : Grow) (d : Nat) (L : List Pend) (h0 : SeqHeap) (st : ScanSt) : Prop where
  grew : h0.length ≤ st.heap.length
  old : ∀ a, a < h0.length → (st.heap.getD a []).length = (h0.getD a []).length ∧ (st.heap.getD a []).take d = (h0.getD a []).take d
  pushed : ∀ c ∈ st.next, ∃ f ∈ L, (∃ s, PushedBy E U f c s) ∧ c.seqs.len = d + 1 ∧ c.seqs.arr < st.heap.length ∧
    (st.heap.getD c.seqs.arr []).length = capSeq grow (d + 1) ∧ (st.heap.getD c.seqs.arr []).take d = (h0.getD f.seqs.arr []).take d ∧
    (d < capSeq grow d → c.seqs.arr = f.seqs.arr)
  apart : ¬ d < capSeq grow d → ∀ c ∈ st.next, h0.length ≤ c.seqs.arr ∧ ∀ c' ∈ st.next, c.seqs.arr = c'.seqs.arr → c.index = c'.index
  last : ∀ c ∈ st.next, ∃ c' ∈ st.next, ∃ f ∈ L, ∃ s, c'.seqs.arr = c.seqs.arr ∧ PushedBy E U f c' s ∧
    (st.heap.getD c.seqs.arr [])[d]? = some s ∧
    ∀ c'' ∈ st.next, c''.seqs.arr = c.seqs.arr → c''.index = c'.index ∨ PathLt c''.index c'.index

/-- A struct of the level. -/
def AtLevel (grow : Grow) (d : Nat) (h : SeqHeap) (f : Pend) : Prop :=
  f.seqs.arr < h.length ∧ (h.getD f.seqs.arr []).length = capSeq grow d ∧ f.seqs.len = d ∧ f.index.length = d

theorem take_set_lt {α : Type} (l : List α) (d : Nat) (x : α) : (l.set d x).take d = l.take d :=
  List.take_set_of_le (Nat.le_refl _)

theorem mid_append {grow : Grow} {d : Nat} {L : List Pend} {h0 : SeqHeap} {st : ScanSt} (hm : MInv E U grow d L h0 st) {f : Pend}
    (hf : f ∈ L) (hg : AtLevel grow d h0 f) {i : Nat} {sf : FieldDef} {v : TId} {ptr : Bool}
    (hi : (nodeFields E f.typ)[i]? = some sf) (hk : cls E U sf = .embed v ptr)
    (hlt : ∀ c ∈ st.next, PathLt c.index (f.index ++ [i])) (cnt : TypeCount) :
    MInv E U grow d L h0 { st with ncnt := cnt, heap := (st.heap.append grow f.seqs ⟨sf.offset, ptr⟩).1, next := st.next ++ [⟨v, f.index ++ [i], (st.heap.append grow f.seqs ⟨sf.offset, ptr⟩).2⟩] } := by
  obtain ⟨g1, g2, g3, g4⟩ := hg
  obtain ⟨o1, o2⟩ := hm.old _ g1
  have g1' : f.seqs.arr < st.heap.length := Nat.lt_of_lt_of_le g1 hm.grew
  have hge := capSeq_ge grow d
  have hpb : ∀ sl, PushedBy E U f ⟨v, f.index ++ [i], sl⟩ ⟨sf.offset, ptr⟩ := fun sl => ⟨i, sf, ptr, rfl, hi, hk, rfl⟩
  simp only [SeqHeap.append]
  rw [g3]
  by_cases hsp : d < capSeq grow d
  · have hsp' : d < (st.heap.getD f.seqs.arr []).length := by rw [o1, g2]; exact hsp
    rw [if_pos hsp']
    have hself : (st.heap.set f.seqs.arr ((st.heap.getD f.seqs.arr []).set d ⟨sf.offset, ptr⟩)).getD f.seqs.arr [] =
        (st.heap.getD f.seqs.arr []).set d ⟨sf.offset, ptr⟩ := by
      simp [List.getD_eq_getElem?_getD, g1']
    have hother : ∀ a, a ≠ f.seqs.arr → (st.heap.set f.seqs.arr ((st.heap.getD f.seqs.arr []).set d ⟨sf.offset, ptr⟩)).getD a [] =
        st.heap.getD a [] := by
      intro a ha
      simp [List.getD_eq_getElem?_getD, ha.symm]
    have hlen : ∀ a, ((st.heap.set f.seqs.arr ((st.heap.getD f.seqs.arr []).set d ⟨sf.offset, ptr⟩)).getD a []).length =
        (st.heap.getD a []).length := by
      intro a
      by_cases ha : a = f.seqs.arr
      · subst ha; rw [hself, List.length_set]
      · rw [hother a ha]
    have htake : ∀ a, ((st.heap.set f.seqs.arr ((st.heap.getD f.seqs.arr []).set d ⟨sf.offset, ptr⟩)).getD a []).take d =
        (st.heap.getD a []).take d := by
      intro a
      by_cases ha : a = f.seqs.arr
      · subst ha; rw [hself, take_set_lt]
      · rw [hother a ha]
    have hcap : capSeq grow (d + 1) = capSeq grow d := by simp [capSeq, hsp]
    refine ⟨by simpa using hm.grew, ?_, ?_, fun h => absurd hsp h, ?_⟩
    · intro a ha
      simp only
      rw [hlen, htake]
      exact hm.old a ha
    · intro c hc
      simp only [List.mem_append, List.mem_singleton] at hc
      rcases hc with hc | hc
      · obtain ⟨f', hf', p1, p2, p3, p4, p5, p6⟩ := hm.pushed c hc
        exact ⟨f', hf', p1, p2, by simpa using p3, by simp only; rw [hlen]; exact p4, by simp only; rw [htake]; exact p5, p6⟩
      · subst hc
        refine ⟨f, hf, ⟨_, hpb _⟩, rfl, by simpa using g1', ?_, ?_, fun _ => rfl⟩
        · simp only; rw [hlen, o1, g2, hcap]
        · simp only; rw [htake, o2]
    · intro c hc
      by_cases ha : c.seqs.arr = f.seqs.arr
      · refine ⟨⟨v, f.index ++ [i], ⟨f.seqs.arr, d + 1⟩⟩, by simp, f, hf, ⟨sf.offset, ptr⟩, ha.symm, hpb _, ?_, ?_⟩
        · simp only; rw [ha, hself, List.getElem?_set_self hsp']
        · intro c'' hc'' _
          simp only [List.mem_append, List.mem_singleton] at hc''
          rcases hc'' with hc'' | hc''
          · exact Or.inr (hlt c'' hc'')
          · subst hc''; exact Or.inl rfl
      · have hc0 : c ∈ st.next := by
          simp only [List.mem_append, List.mem_singleton] at hc
          rcases hc with hc | hc
          · exact hc
          · subst hc; exact absurd rfl ha
        obtain ⟨c', hc', f', hf', s, l1, l2, l3, l4⟩ := hm.last c hc0
        refine ⟨c', by simp [hc'], f', hf', s, l1, l2, by simp only; rw [hother _ ha]; exact l3, ?_⟩
        intro c'' hc'' he
        simp only [List.mem_append, List.mem_singleton] at hc''
        rcases hc'' with hc'' | hc''
        · exact l4 c'' hc'' he
        · subst hc''; exact absurd he.symm ha
  · have hsp' : ¬ d < (st.heap.getD f.seqs.arr []).length := by rw [o1, g2]; exact hsp
    rw [if_neg hsp']
    have heq : (st.heap.getD f.seqs.arr []).length = d := by rw [o1, g2]; omega
    generalize hN : (st.heap.getD f.seqs.arr []).take d ++ [(⟨sf.offset, ptr⟩ : Seq)] ++
      List.replicate (max (grow (st.heap.getD f.seqs.arr []).length) (d + 1) - (d + 1)) ⟨0, false⟩ = N
    have hNlen : N.length = capSeq grow (d + 1) := by
      rw [← hN]
      simp only [List.length_append, List.length_take, List.length_replicate, List.length_singleton, capSeq, if_neg hsp, heq]
      have : capSeq grow d = d := by omega
      rw [this]; omega
    have hNtake : N.take d = (h0.getD f.seqs.arr []).take d := by
      rw [← hN, ← o2, List.append_assoc, List.take_append_of_le_length (by simp only [List.length_take]; omega), List.take_take]
      simp
    have hNget : N[d]? = some ⟨sf.offset, ptr⟩ := by
      rw [← hN, List.append_assoc, List.getElem?_append_right (by simp only [List.length_take]; omega)]
      have : d - (List.take d (st.heap.getD f.seqs.arr [])).length = 0 := by simp only [List.length_take]; omega
      rw [this]; rfl
    have hself : (st.heap ++ [N]).getD st.heap.length [] = N := by simp [List.getD_eq_getElem?_getD]
    have hother : ∀ a, a < st.heap.length → (st.heap ++ [N]).getD a [] = st.heap.getD a [] := by
      intro a ha; simp [List.getD_eq_getElem?_getD, List.getElem?_append_left ha]
    refine ⟨?_, ?_, ?_, ?_, ?_⟩
    · have := hm.grew; simp; omega
    · intro a ha
      simp only
      rw [hother a (Nat.lt_of_lt_of_le ha hm.grew)]
      exact hm.old a ha
    · intro c hc
      simp only [List.mem_append, List.mem_singleton] at hc
      rcases hc with hc | hc
      · obtain ⟨f', hf', p1, p2, p3, p4, p5, p6⟩ := hm.pushed c hc
        exact ⟨f', hf', p1, p2, by simp; omega, by simp only; rw [hother _ p3]; exact p4, by simp only; rw [hother _ p3]; exact p5, p6⟩
      · subst hc
        exact ⟨f, hf, ⟨_, hpb _⟩, rfl, by simp, by simp only; rw [hself]; exact hNlen, by simp only; rw [hself]; exact hNtake, fun h => absurd h hsp⟩
    · intro _ c hc
      have lt : ∀ c ∈ st.next, c.seqs.arr < st.heap.length := fun c hc => by
        obtain ⟨_, _, _, _, p3, _⟩ := hm.pushed c hc; exact p3
      simp only [List.mem_append, List.mem_singleton] at hc
      rcases hc with hc | hc
      · refine ⟨(hm.apart hsp c hc).1, ?_⟩
        intro c' hc' he
        simp only [List.mem_append, List.mem_singleton] at hc'
        rcases hc' with hc' | hc'
        · exact (hm.apart hsp c hc).2 c' hc' he
        · subst hc'; have := lt c hc; simp only at he; omega
      · subst hc
        refine ⟨hm.grew, ?_⟩
        intro c' hc' he
        simp only [List.mem_append, List.mem_singleton] at hc'
        rcases hc' with hc' | hc'
        · have := lt c' hc'; simp only at he; omega
        · subst hc'; rfl
    · intro c hc
      have lt : ∀ c ∈ st.next, c.seqs.arr < st.heap.length := fun c hc => by
        obtain ⟨_, _, _, _, p3, _⟩ := hm.pushed c hc; exact p3
      simp only [List.mem_append, List.mem_singleton] at hc
      rcases hc with hc | hc
      · obtain ⟨c', hc', f', hf', s, l1, l2, l3, l4⟩ := hm.last c hc
        refine ⟨c', by simp [hc'], f', hf', s, l1, l2, by simp only; rw [hother _ (lt c hc)]; exact l3, ?_⟩
        intro c'' hc'' he
        simp only [List.mem_append, List.mem_singleton] at hc''
        rcases hc'' with hc'' | hc''
        · exact l4 c'' hc'' he
        · subst hc''; have := lt c hc; simp only at he; omega
      · subst hc
        refine ⟨⟨v, f.index ++ [i], ⟨st.heap.length, d + 1⟩⟩, by simp, f, hf, ⟨sf.offset, ptr⟩, rfl, hpb _, by simp only; rw [hself]; exact hNget, ?_⟩
        intro c'' hc'' he
        simp only [List.mem_append, List.mem_singleton] at hc''
        rcases hc'' with hc'' | hc''
        · exact Or.inr (hlt c'' hc'')
        · subst hc''; exact Or.inl rfl

/-- The record of a field of `f`: its route is the slice of `f`. -/
def RecFld (E : Env) (U : UnicodeTab) (h0 : SeqHeap) (f : Pend) (g : Fld) : Prop :=
  ∃ i sf nm tg, (nodeFields E f.typ)[i]? = some sf ∧ cls E U sf = .leaf nm tg ∧
    g = mkFld E (h0.read f.seqs) (f.index ++ [i]) sf nm tg (parseTag sf.tag).2

theorem mid_read {grow : Grow} {d : Nat} {L : List Pend} {h0 : SeqHeap} {st : ScanSt} (hm : MInv E U grow d L h0 st) {f : Pend}
    (hg : AtLevel grow d h0 f) : st.heap.read f.seqs = h0.read f.seqs := by
  obtain ⟨g1, -, g3, -⟩ := hg
  unfold SeqHeap.read
  rw [g3]
  exact (hm.old _ g1).2

theorem scanFrom_mid {grow : Grow} {d : Nat} {L : List Pend} {h0 : SeqHeap} {f : Pend} (cnt : TypeCount)
    (hf : f ∈ L) (hg : AtLevel grow d h0 f) :
    ∀ (fs : List FieldDef) (i : Nat) (st : ScanSt), (nodeFields E f.typ).drop i = fs → MInv E U grow d L h0 st →
      (∀ c ∈ st.next, PathLt c.index (f.index ++ [i])) →
      let st' := scanFrom E U grow f cnt i fs st
      MInv E U grow d L h0 st' ∧ (∀ c ∈ st'.next, c ∈ st.next ∨ ∃ j, c.index = f.index ++ [j]) ∧
        (∀ g ∈ st'.flds, g ∈ st.flds ∨ RecFld E U h0 f g)
  | [], i, st, hd, hm, hlt => by
    simp only [scanFrom]
    exact ⟨hm, fun c hc => Or.inl hc, fun g hg => Or.inl hg⟩
  | sf :: fs, i, st, hd, hm, hlt => by
    have hsf : (nodeFields E f.typ)[i]? = some sf := by
      have : ((nodeFields E f.typ).drop i)[0]? = some sf := by rw [hd]; rfl
      simpa using this
    have hd' : (nodeFields E f.typ).drop (i + 1) = fs := by
      rw [← List.drop_drop, hd]; rfl
    have hlt' : ∀ c ∈ st.next, PathLt c.index (f.index ++ [i + 1]) :=
      fun c hc => pathLt_trans (hlt c hc) (pathLt_last _ (by omega))
    simp only [scanFrom]
    rw [scanField_eq]
    cases hk : cls E U sf with
    | skip => exact scanFrom_mid cnt hf hg fs (i + 1) st hd' hm hlt'
    | leaf nm tg =>
      simp only
      obtain ⟨m1, m2, m3⟩ := scanFrom_mid cnt hf hg fs (i + 1) _ hd' (⟨hm.grew, hm.old, hm.pushed, hm.apart, hm.last⟩ : MInv E U grow d L h0
        { st with flds := st.flds ++ (if cnt f.typ > 1 then
            [mkFld E (st.heap.read f.seqs) (f.index ++ [i]) sf nm tg (parseTag sf.tag).2,
             mkFld E (st.heap.read f.seqs) (f.index ++ [i]) sf nm tg (parseTag sf.tag).2] else
            [mkFld E (st.heap.read f.seqs) (f.index ++ [i]) sf nm tg (parseTag sf.tag).2]) }) hlt'
      refine ⟨m1, m2, ?_⟩
      intro g hg'
      rcases m3 g hg' with h | h
      · simp only [List.mem_append] at h
        rcases h with h | h
        · exact Or.inl h
        · right
          have : g = mkFld E (st.heap.read f.seqs) (f.index ++ [i]) sf nm tg (parseTag sf.tag).2 := by
            split at h <;> simpa using h
          rw [mid_read hm hg] at this
          exact ⟨i, sf, nm, tg, hsf, hk, this⟩
      · exact Or.inr h
    | embed v ptr =>
      simp only
      split
      · obtain ⟨m1, m2, m3⟩ := scanFrom_mid cnt hf hg fs (i + 1) _ hd' (mid_append hm hf hg hsf hk hlt (st.ncnt.incr v)) (by
          intro c hc
          simp only [List.mem_append, List.mem_singleton] at hc
          rcases hc with hc | hc
          · exact hlt' c hc
          · subst hc; exact pathLt_last _ (by omega))
        refine ⟨m1, ?_, m3⟩
        intro c hc
        rcases m2 c hc with h | h
        · simp only [List.mem_append, List.mem_singleton] at h
          rcases h with h | h
          · exact Or.inl h
          · subst h; exact Or.inr ⟨i, rfl⟩
        · exact Or.inr h
      · exact scanFrom_mid cnt hf hg fs (i + 1) { st with ncnt := st.ncnt.incr v } hd'
          ⟨hm.grew, hm.old, hm.pushed, hm.apart, hm.last⟩ hlt'

theorem scanLevel_mid {grow : Grow} {d : Nat} {L : List Pend} {h0 : SeqHeap} (cnt : TypeCount)
    (hg : ∀ f ∈ L, AtLevel grow d h0 f) :
    ∀ (curr : List Pend) (seen : List TId) (st : ScanSt), (∀ f ∈ curr, f ∈ L) → curr.Pairwise (fun a b => PathLt a.index b.index) →
      MInv E U grow d L h0 st → (∀ c ∈ st.next, ∀ f ∈ curr, ∀ i, PathLt c.index (f.index ++ [i])) →
      let r := (scanLevel E U grow cnt curr seen st).2
      MInv E U grow d L h0 r ∧ (∀ g ∈ r.flds, g ∈ st.flds ∨ ∃ f ∈ curr, f.typ ∉ seen ∧ RecFld E U h0 f g)
  | [], seen, st, _, _, hm, _ => by simp only [scanLevel]; exact ⟨hm, fun g hg => Or.inl hg⟩
  | f :: curr, seen, st, hL, hs, hm, hlt => by
    rw [List.pairwise_cons] at hs
    have hL' : ∀ f ∈ curr, f ∈ L := fun p hp => hL p (List.mem_cons_of_mem _ hp)
    simp only [scanLevel]
    split
    · obtain ⟨m1, m2⟩ := scanLevel_mid cnt hg curr seen st hL' hs.2 hm (fun c hc p hp => hlt c hc p (List.mem_cons_of_mem _ hp))
      refine ⟨m1, ?_⟩
      intro g hg'
      rcases m2 g hg' with h | ⟨p, hp, h⟩
      · exact Or.inl h
      · exact Or.inr ⟨p, List.mem_cons_of_mem _ hp, h⟩
    · rename_i hseen
      have hfL := hL f List.mem_cons_self
      obtain ⟨a1, a2, a3⟩ := scanFrom_mid (E := E) (U := U) cnt hfL (hg f hfL) (nodeFields E f.typ) 0 st rfl hm
        (fun c hc => hlt c hc f List.mem_cons_self 0)
      obtain ⟨m1, m2⟩ := scanLevel_mid cnt hg curr (f.typ :: seen) (scanFields E U grow f cnt st) hL' hs.2 a1 (by
        intro c hc p hp i
        rcases a2 c hc with h | ⟨j, h⟩
        · exact hlt c h p (List.mem_cons_of_mem _ hp) i
        · rw [h]
          exact pathLt_append _ _ (by rw [(hg f hfL).2.2.2, (hg p (hL' p hp)).2.2.2]) (hs.1 p hp))
      refine ⟨m1, ?_⟩
      intro g hg'
      rcases m2 g hg' with h | ⟨p, hp, h1, h2⟩
      · rcases a3 g h with h | h
        · exact Or.inl h
        · exact Or.inr ⟨f, List.mem_cons_self, by simpa using hseen, h⟩
      · exact Or.inr ⟨p, List.mem_cons_of_mem _ hp, fun hn => h1 (List.mem_cons_of_mem _ hn), h2⟩

/-- The structs of a level are those whose first path has its length. -/
theorem level_canonical (hU : TablesOk U.isLetter U.isDigit) {d : Nat} {log : List Scn} {seen : List TId} {st : ScanSt}
    (h : BInv E U t d log seen st) {p : List Nat} {u : TId} (hl : p.length = d) :
    Canonical U.isLetter U.isDigit E t p u ↔ (u, p) ∈ (st.next.map Pend.key).filter (fun n => decide (n.1 ∉ seen)) := by
  rw [List.mem_filter, decide_eq_true_iff]
  constructor
  · rintro ⟨⟨q, hq⟩, hleast⟩
    have hpn : PathN E U t (u, p) := (pathN_iff hU).mpr ⟨q, hq⟩
    have hns : u ∉ seen := by
      intro hs
      rw [h.seen_iff, List.mem_map] at hs
      obtain ⟨s, hs, rfl⟩ := hs
      obtain ⟨h1, h2⟩ := h.log_path s hs
      obtain ⟨q', hq'⟩ := (pathN_iff hU).mp h1
      rcases hleast _ _ hq' with h3 | h3 | h3
      · rw [h3] at h2; omega
      · omega
      · omega
    refine ⟨?_, hns⟩
    rcases binv_cover h hpn with ⟨m, hm, h1, h2⟩ | hlt
    · rw [List.mem_append] at hm
      rcases hm with hm | hm
      · exfalso
        apply hns
        rw [h.seen_iff]
        rw [List.mem_map] at hm ⊢
        obtain ⟨s, hs', rfl⟩ := hm
        exact ⟨s, hs', h1⟩
      · have hm' := (h.next_path m hm).1
        obtain ⟨q', hq'⟩ := (pathN_iff hU).mp (show PathN E U t (m.1, m.2) from hm')
        rw [h1] at hq'
        have : m.2 = p := SLe.antisymm h2 (by
          rcases hleast _ _ hq' with h3 | h3 | h3
          · exact Or.inl h3.symm
          · exact Or.inr (Or.inl h3)
          · exact Or.inr (Or.inr h3))
        rw [← this]
        simp only at h1
        rw [← h1]
        exact hm
    · simp only at hlt; omega
  · rintro ⟨h1, h2⟩
    rw [List.mem_map] at h1
    obtain ⟨f, hf, he⟩ := h1
    have := binv_canonical hU h f hf (by simp only [Pend.key, Prod.mk.injEq] at he; rw [he.1]; exact h2)
    simp only [Pend.key, Prod.mk.injEq] at he
    rwa [he.1, he.2] at this

/-- The structs waiting after a level are the queued paths of the next length. -/
theorem level_queued (hU : TablesOk U.isLetter U.isDigit) {grow : Grow} {d : Nat} {log : List Scn} {seen : List TId} {st : ScanSt}
    (h : BInv E U t d log seen st) {a : List Nat} {s : Nat × Bool} (hl : a.length = d + 1) :
    let r := scanLevel E U grow st.ncnt st.next seen { flds := st.flds, next := [], ncnt := fun _ => 0, heap := st.heap }
    Queued U.isLetter U.isDigit E t a s ↔ ∃ c ∈ r.2.next, c.index = a ∧ ∃ f ∈ st.next, PushedBy E U f c ⟨s.1, s.2⟩ := by
  obtain ⟨new, n1, n2, hinv⟩ := level_inv (grow := grow) h
  simp only at n2 hinv ⊢
  generalize (scanLevel E U grow st.ncnt st.next seen { flds := st.flds, next := [], ncnt := fun _ => 0, heap := st.heap }).2 = r at n2 hinv
  have newLen : ∀ n ∈ new.map Scn.key, n.2.length = d := by
    intro n hn
    rw [n1, List.mem_filter] at hn
    exact (h.next_path n hn.1).2
  have pushIff : ∀ b v, b.length = d + 1 → (CanonicalPush U.isLetter U.isDigit E t b v ↔ (v, b) ∈ (new.map Scn.key).flatMap (pushOf E U)) := by
    intro b v hb
    rw [List.mem_flatMap]
    constructor
    · rintro ⟨p, w, fs, i, sf, ptr, rfl, hc, hf, hi, hp⟩
      have hpl : p.length = d := by simpa using hb
      refine ⟨(w, p), ?_, ?_⟩
      · rw [n1]; exact (level_canonical hU h hpl).mp hc
      · rw [pushOf_mem]
        exact ⟨i, sf, ptr, nodeFields_get.mpr ⟨fs, hf, hi⟩, (cls_embed hU).mpr hp, rfl⟩
    · rintro ⟨n, hn, hx⟩
      obtain ⟨i, sf, ptr, e1, e2, e3⟩ := (pushOf_mem E U n (v, b)).mp hx
      obtain ⟨fs, hf, hi⟩ := nodeFields_get.mp e1
      refine ⟨n.2, n.1, fs, i, sf, ptr, e3, ?_, hf, hi, (cls_embed hU).mp e2⟩
      rw [level_canonical hU h (newLen n hn), ← n1]
      exact hn
  have newSorted : (new.map Scn.key).Pairwise (fun a b => PathLt a.2 b.2) := by
    rw [n1]; exact h.next_sorted.sublist List.filter_sublist
  have hsorted := pushes_sorted E U d (new.map Scn.key) newSorted newLen
  have least := addNew_least [] ((new.map Scn.key).flatMap (pushOf E U)) (by simpa using hsorted)
  have nd : ((addNew [] ((new.map Scn.key).flatMap (pushOf E U))).map (·.1)).Nodup := addNew_nodup _ _ (by simp)
  constructor
  · rintro ⟨p, w, fs, i, sf, v, ptr, rfl, hc, hf, hi, hp, rfl, hmin⟩
    have hpush : CanonicalPush U.isLetter U.isDigit E t (p ++ [i]) v := ⟨p, w, fs, i, sf, ptr, rfl, hc, hf, hi, hp⟩
    obtain ⟨n, hn, h1, h2⟩ := least (v, p ++ [i]) (by simpa using (pushIff _ _ hl).mp hpush)
    have hnin : n ∈ (new.map Scn.key).flatMap (pushOf E U) := by
      rcases addNew_mem _ _ n hn with h | h
      · simp at h
      · exact h
    have hnl : n.2.length = d + 1 := by
      rw [List.mem_flatMap] at hnin
      obtain ⟨m, hm, hx⟩ := hnin
      rw [push_len hx, newLen m hm]
    have hnp : CanonicalPush U.isLetter U.isDigit E t n.2 v := by
      rw [pushIff _ _ hnl]
      simp only at h1
      rw [← h1]; exact hnin
    have hnp2 : n.2 = p ++ [i] := by
      rcases hmin n.2 hnp (by rw [hnl, hl]) with h3 | h3
      · exact h3
      · rcases h2 with h2 | h2
        · exact h2
        · exact absurd h3 (fun h => pathLt_asymm h h2)
    rw [← n2, List.mem_map] at hn
    obtain ⟨c, hc', hck⟩ := hn
    have hci : c.index = p ++ [i] := by rw [← hnp2, ← hck]; rfl
    have hct : c.typ = v := by simp only at h1; rw [← h1, ← hck]; rfl
    have hpl : p.length = d := by simpa using hl
    have := (level_canonical hU h hpl).mp hc
    rw [List.mem_filter, List.mem_map] at this
    obtain ⟨⟨f, hf', hfk⟩, -⟩ := this
    simp only [Pend.key, Prod.mk.injEq] at hfk
    refine ⟨c, hc', hci, f, hf', i, sf, ptr, by rw [hfk.2]; exact hci, ?_, ?_, rfl⟩
    · rw [hfk.1]; exact nodeFields_get.mpr ⟨fs, hf, hi⟩
    · rw [hct]; exact (cls_embed hU).mpr hp
  · rintro ⟨c, hc, rfl, f, hf, i, sf, ptr, e1, e2, e3, e4⟩
    have hck : (c.typ, c.index) ∈ addNew [] ((new.map Scn.key).flatMap (pushOf E U)) := by
      rw [← n2]; exact List.mem_map_of_mem (f := Pend.key) hc
    have hcin : (c.typ, c.index) ∈ (new.map Scn.key).flatMap (pushOf E U) := by
      rcases addNew_mem _ _ _ hck with h | h
      · simp at h
      · exact h
    rw [List.mem_flatMap] at hcin
    obtain ⟨n, hn, hx⟩ := hcin
    obtain ⟨i', sf', ptr', x1, x2, x3⟩ := (pushOf_mem E U n _).mp hx
    simp only at x2 x3
    rw [e1] at x3
    obtain ⟨hx3, rfl⟩ := append_single_inj x3
    -- the pushing struct is the one at this path
    have hnk : n ∈ st.next.map Pend.key := by rw [n1, List.mem_filter] at hn; exact hn.1
    have hfk : Pend.key f ∈ st.next.map Pend.key := List.mem_map_of_mem hf
    have hnf : n = Pend.key f := by
      have hs := h.next_sorted
      generalize st.next.map Pend.key = l at hs hnk hfk
      have hne : n.2 = (Pend.key f).2 := hx3.symm
      clear n1 h hinv
      induction l with
      | nil => simp at hnk
      | cons a l ih =>
        rw [List.pairwise_cons] at hs
        rw [List.mem_cons] at hnk hfk
        have irr : ∀ x : List Nat, ¬ PathLt x x := fun x hx => pathLt_asymm hx hx
        rcases hnk with h1 | h1
        · rcases hfk with h2 | h2
          · rw [h1, h2]
          · exfalso; have := hs.1 _ h2; rw [← h1, hne] at this; exact irr _ this
        · rcases hfk with h2 | h2
          · exfalso; have := hs.1 _ h1; rw [← h2, hne] at this; exact irr _ this
          · exact ih hs.2 h1 h2
    subst hnf
    simp only [Pend.key] at x1
    rw [e2] at x1
    simp only [Option.some.injEq] at x1
    subst x1
    rw [x2] at e3
    simp only [Cls.embed.injEq, true_and] at e3
    subst e3
    obtain ⟨fs, hfs, hi⟩ := nodeFields_get.mp e2
    have hse : s = (sf.offset, ptr') := by
      cases s; simp only [Seq.mk.injEq] at e4; rw [e4.1, e4.2]
    refine ⟨f.index, f.typ, fs, i, sf, c.typ, ptr', e1, ?_, hfs, hi, (cls_embed hU).mp x2, hse, ?_⟩
    · exact (level_canonical hU h ((h.next_path _ hfk).2)).mpr (by rw [← n1]; exact hn)
    · intro b hb hbl
      have hbl' : b.length = d + 1 := by omega
      obtain ⟨m, hm, h1, h2⟩ := least (c.typ, b) (by simpa using (pushIff _ _ hbl').mp hb)
      have : m = (c.typ, c.index) := by
        simp only at h1
        generalize addNew [] ((new.map Scn.key).flatMap (pushOf E U)) = l at nd hm hck
        clear h2 n2 least
        induction l with
        | nil => simp at hm
        | cons a l ih =>
          simp only [List.map_cons, List.nodup_cons, List.mem_map, not_exists, not_and] at nd
          rw [List.mem_cons] at hm hck
          rcases hm with hm | hm
          · rcases hck with hck | hck
            · rw [hm, hck]
            · exact absurd (by rw [← hm, h1]) (nd.1 _ hck)
          · rcases hck with hck | hck
            · exact absurd (by rw [← hck, h1]) (nd.1 _ hm)
            · exact ih nd.2 hm hck
      subst this
      rcases h2 with h2 | h2
      · exact Or.inl h2.symm
      · exact Or.inr h2

/-- Before a level: each waiting struct has the entries the rule gives, and shares its
array with the structs of the same beginning. -/
structure LInv (E : Env) (U : UnicodeTab) (grow : Grow) (t : TId) (d : Nat) (h : SeqHeap) (L : List Pend) : Prop where
  at_ : ∀ f ∈ L, AtLevel grow d h f
  entry : ∀ f ∈ L, ∀ j, j < d → ∃ s, (h.getD f.seqs.arr [])[j]? = some s ∧
    RecordedStep U.isLetter U.isDigit grow E t f.index j (s.offset, s.indir)
  share : ∀ k m, d = k + 1 → MadeAt grow k m → ∀ f ∈ L, ∀ f' ∈ L,
    (f.seqs.arr = f'.seqs.arr ↔ f.index.take (m + 1) = f'.index.take (m + 1))

theorem recorded_take {grow : Nat → Nat} {letter digit : Nat → Bool} {p : List Nat} {j : Nat} {s : Nat × Bool}
    (h : RecordedStep letter digit grow E t p j s) (hj : j < p.length) (i : Nat) :
    RecordedStep letter digit grow E t (p ++ [i]) j s := by
  obtain ⟨m, c, hm, ⟨h1, h2, h3⟩, h4⟩ := h
  have : (p ++ [i]).take (m + 1) = p.take (m + 1) := by
    have := hm.1
    rw [List.take_append_of_le_length (by omega)]
  exact ⟨m, c, hm, ⟨h1, h2, by rw [this]; exact h3⟩, fun c' s' hq hl ht => h4 c' s' hq hl (by rw [← this]; exact ht)⟩

theorem level_recorded (hU : TablesOk U.isLetter U.isDigit) {grow : Grow} {d : Nat} {log : List Scn} {seen : List TId} {st : ScanSt}
    (h : BInv E U t d log seen st) (hl : LInv E U grow t d st.heap st.next) :
    let r := scanLevel E U grow st.ncnt st.next seen { flds := st.flds, next := [], ncnt := fun _ => 0, heap := st.heap }
    LInv E U grow t (d + 1) r.2.heap r.2.next ∧
      (∀ g ∈ r.2.flds, g ∈ st.flds ∨ ∃ f ∈ st.next, f.typ ∉ seen ∧ RecFld E U st.heap f g) := by
  have hq := fun (a : List Nat) (s : Nat × Bool) (hla : a.length = d + 1) => level_queued (grow := grow) hU h (a := a) (s := s) hla
  obtain ⟨new, -, -, hinv⟩ := level_inv (grow := grow) h
  have hsorted : st.next.Pairwise (fun a b => PathLt a.index b.index) := by
    have := h.next_sorted; rw [List.pairwise_map] at this; exact this
  obtain ⟨hm, hflds⟩ := scanLevel_mid (E := E) (U := U) (grow := grow) (d := d) (L := st.next) (h0 := st.heap) st.ncnt hl.at_ st.next seen
    { flds := st.flds, next := [], ncnt := fun _ => 0, heap := st.heap } (fun f hf => hf) hsorted
    ⟨Nat.le_refl _, fun a _ => ⟨rfl, rfl⟩, by simp, by simp, by simp⟩ (by simp)
  simp only at hq hinv hm hflds ⊢
  refine ⟨?_, hflds⟩
  clear hflds
  generalize (scanLevel E U grow st.ncnt st.next seen { flds := st.flds, next := [], ncnt := fun _ => 0, heap := st.heap }).2 = r at hq hinv hm
  have hlen : ∀ c ∈ r.next, c.index.length = d + 1 := fun c hc => (hinv.next_path _ (List.mem_map_of_mem hc)).2
  have hsame : ∀ c ∈ r.next, ∀ c' ∈ r.next, c.index = c'.index → c = c' := by
    have hs := hinv.next_sorted
    rw [List.pairwise_map] at hs
    intro c hc c' hc' he
    generalize r.next = l at hs hc hc'
    induction l with
    | nil => simp at hc
    | cons a l ih =>
      rw [List.pairwise_cons] at hs
      rw [List.mem_cons] at hc hc'
      have irr : ∀ x : List Nat, ¬ PathLt x x := fun x hx => pathLt_asymm hx hx
      rcases hc with h1 | h1
      · rcases hc' with h2 | h2
        · rw [h1, h2]
        · exfalso; have := hs.1 _ h2; rw [← h1] at this; simp only [Pend.key, he] at this; exact irr _ this
      · rcases hc' with h2 | h2
        · exfalso; have := hs.1 _ h1; rw [← h2] at this; simp only [Pend.key, he] at this; exact irr _ this
        · exact ih hs.2 h1 h2
  have share : ∀ m, MadeAt grow d m → ∀ c ∈ r.next, ∀ c' ∈ r.next,
      (c.seqs.arr = c'.seqs.arr ↔ c.index.take (m + 1) = c'.index.take (m + 1)) := by
    intro m hmade c hc c' hc'
    by_cases hsp : d < capSeq grow d
    · cases d with
      | zero => simp [capSeq] at hsp
      | succ k =>
        have hk := madeAt_pred hmade hsp
        obtain ⟨f, hf, ⟨s, i, sf, ptr, e1, -⟩, -, -, -, -, e2⟩ := hm.pushed c hc
        obtain ⟨f', hf', ⟨s', i', sf', ptr', e1', -⟩, -, -, -, -, e2'⟩ := hm.pushed c' hc'
        have hle := hk.1
        have l1 := (hl.at_ f hf).2.2.2
        have l2 := (hl.at_ f' hf').2.2.2
        rw [e2 hsp, e2' hsp, hl.share k m rfl hk f hf f' hf', e1, e1', List.take_append_of_le_length (by omega), List.take_append_of_le_length (by omega)]
    · have : m = d := madeAt_self hmade (by omega)
      subst this
      rw [List.take_of_length_le (by rw [hlen c hc]; exact Nat.le_refl _), List.take_of_length_le (by rw [hlen c' hc']; exact Nat.le_refl _)]
      constructor
      · intro he; exact (hm.apart hsp c hc).2 c' hc' he
      · intro he; rw [hsame c hc c' hc' he]
  refine ⟨?_, ?_, ?_⟩
  · intro c hc
    obtain ⟨f, hf, -, p2, p3, p4, -, -⟩ := hm.pushed c hc
    exact ⟨p3, p4, p2, hlen c hc⟩
  · intro c hc j hj
    by_cases hjd : j < d
    · obtain ⟨f, hf, ⟨_, i, sf, ptr, e1, -⟩, -, -, -, p5, -⟩ := hm.pushed c hc
      obtain ⟨s, s1, s2⟩ := hl.entry f hf j hjd
      refine ⟨s, ?_, ?_⟩
      · rw [← s1]
        have e := congrArg (fun l => l[j]?) p5
        simp only [List.getElem?_take, hjd, if_true] at e
        exact e
      · rw [e1]; exact recorded_take s2 (by rw [(hl.at_ f hf).2.2.2]; exact hjd) i
    · have : j = d := by omega
      subst this
      obtain ⟨c', hc', f, hf, s, l1, l2, l3, l4⟩ := hm.last c hc
      obtain ⟨m, hmade⟩ := madeAt_exists grow j
      refine ⟨s, l3, m, c'.index, hmade, ⟨?_, hlen c' hc', (share m hmade c' hc' c hc).mp l1⟩, ?_⟩
      · exact (hq c'.index (s.offset, s.indir) (hlen c' hc')).mpr ⟨c', hc', rfl, f, hf, l2⟩
      · intro a s' ha hal hat
        obtain ⟨c'', hc'', rfl, -⟩ := (hq a s' hal).mp ha
        exact l4 c'' hc'' ((share m hmade c'' hc'' c hc).mpr hat)
  · intro k m hk hmade
    have : d = k := by omega
    subst this
    exact share m hmade

/-- What the record of a field is, whatever the type graph. -/
def RecordOk (E : Env) (U : UnicodeTab) (grow : Grow) (t : TId) (g : Fld) : Prop :=
  ∃ p u i sf, g.index = p ++ [i] ∧ Canonical U.isLetter U.isDigit E t p u ∧ (∃ fs, HasFields E u fs ∧ fs[i]? = some sf) ∧
    Member U.isLetter U.isDigit E sf g.name g.tag ∧ g.embedSeq.length = p.length + 1 ∧
    (∀ j, j < p.length → ∃ s, g.embedSeq[j]? = some s ∧ RecordedStep U.isLetter U.isDigit grow E t p j (s.offset, s.indir)) ∧
    g.embedSeq[p.length]? = some ⟨sf.offset, false⟩ ∧
    g = mkFld E g.embedSeq.dropLast g.index sf g.name g.tag (parseTag sf.tag).2

theorem recFld_ok (hU : TablesOk U.isLetter U.isDigit) {grow : Grow} {d : Nat} {log : List Scn} {seen : List TId} {st : ScanSt}
    (h : BInv E U t d log seen st) (hl : LInv E U grow t d st.heap st.next) {f : Pend} (hf : f ∈ st.next) (hs : f.typ ∉ seen)
    {g : Fld} (hg : RecFld E U st.heap f g) : RecordOk E U grow t g := by
  obtain ⟨i, sf, nm, tg, h1, h2, rfl⟩ := hg
  obtain ⟨a1, a2, a3, a4⟩ := hl.at_ f hf
  have hge := capSeq_ge grow d
  have hlen : (st.heap.read f.seqs).length = d := by
    simp only [SeqHeap.read, List.length_take, a2, a3]; omega
  have hmem := (cls_leaf hU).mp h2
  refine ⟨f.index, f.typ, i, sf, (mkFld_index ..).1, binv_canonical hU h f hf hs, nodeFields_get.mp h1, ?_, ?_, ?_, ?_, by simp [mkFld]⟩
  · rw [(mkFld_index ..).2.1, (mkFld_index ..).2.2]; exact hmem
  · simp [mkFld, hlen, a4]
  · intro j hj
    rw [a4] at hj
    obtain ⟨s, s1, s2⟩ := hl.entry f hf j hj
    refine ⟨s, ?_, s2⟩
    simp only [mkFld]
    rw [List.getElem?_append_left (by omega)]
    simp only [SeqHeap.read, a3, List.getElem?_take, hj, if_true]
    exact s1
  · simp only [mkFld]
    rw [List.getElem?_append_right (by omega), hlen, a4]
    simp

theorem bfs_recorded (hU : TablesOk U.isLetter U.isDigit) (grow : Grow) :
    ∀ (fuel d : Nat) (log : List Scn) (seen : List TId) (st : ScanSt) (flds : List Fld), BInv E U t d log seen st →
      LInv E U grow t d st.heap st.next → (∀ g ∈ st.flds, RecordOk E U grow t g) → bfs E U grow fuel seen st = some flds →
      ∀ g ∈ flds, RecordOk E U grow t g
  | 0, d, log, seen, st, flds, hb', hi, hf, hb => by simp [bfs] at hb
  | fuel + 1, d, log, seen, st, flds, hb', hi, hf, hb => by
    rw [bfs] at hb
    by_cases hn : st.next = []
    · rw [if_pos hn] at hb
      simp only [Option.some.injEq] at hb
      subst hb; exact hf
    · rw [if_neg hn] at hb
      obtain ⟨hl, hfl⟩ := level_recorded hU hb' hi
      obtain ⟨new, -, -, hinv⟩ := level_inv (grow := grow) hb'
      refine bfs_recorded hU grow fuel _ _ _ _ flds hinv hl ?_ hb
      intro g hg
      rcases hfl g hg with h | ⟨f, h1, h2, h3⟩
      · exact hf g h
      · exact recFld_ok hU hb' hi h1 h2 h3

theorem structFields_recorded (hU : TablesOk U.isLetter U.isDigit) {grow : Grow} {sort : SortAlg} (hsort : SortOk sort) {fuel : Nat}
    {l : List Fld} (h : structFields E U grow sort fuel t = some l) : ∀ f ∈ l, RecordOk E U grow t f := by
  obtain ⟨flds, hb, hsub⟩ := structFields_sub hsort h
  have := bfs_recorded (E := E) (t := t) hU grow fuel 0 [] [] _ flds (init_inv E U t) (by
    refine ⟨?_, by simp, by simp⟩
    intro p hp
    simp only [List.mem_singleton] at hp
    subst hp
    exact ⟨by simp, by simp [capSeq], rfl, rfl⟩) (by simp) hb
  exact fun f hf => this f (hsub f hf)

/-! ## When the recorded route is the true one -/

theorem reaches_take {letter digit : Nat → Bool} {p : List Nat} {u : TId} {q : List (Nat × Bool)} (h : Reaches letter digit E t p u q) :
    q.length = p.length ∧ ∀ j, j ≤ p.length → ∃ w, Reaches letter digit E t (p.take j) w (q.take j) := by
  induction h with
  | here => exact ⟨rfl, fun j hj => ⟨t, by simpa using Reaches.here⟩⟩
  | @step p u q fs i sf v ptr hr hf hi hp ih =>
    obtain ⟨h1, h2⟩ := ih
    refine ⟨by simp [h1], ?_⟩
    intro j hj
    by_cases hjl : j ≤ p.length
    · rw [List.take_append_of_le_length hjl, List.take_append_of_le_length (by omega)]
      exact h2 j hjl
    · rw [List.take_of_length_le (by simp; omega), List.take_of_length_le (by simp; omega)]
      exact ⟨v, .step hr hf hi hp⟩

theorem queued_reaches {letter digit : Nat → Bool} {a : List Nat} {s : Nat × Bool} (h : Queued letter digit E t a s) :
    ∃ v q, Reaches letter digit E t a v (q ++ [s]) := by
  obtain ⟨p, w, fs, i, sf, v, ptr, rfl, ⟨⟨q, hq⟩, -⟩, hf, hi, hp, rfl, -⟩ := h
  exact ⟨v, q, .step hq hf hi hp⟩

/-- The step of a queued beginning of a path is the step of the path. -/
theorem queued_step (hU : TablesOk U.isLetter U.isDigit) {p : List Nat} {u : TId} {q : List (Nat × Bool)}
    (hr : Reaches U.isLetter U.isDigit E t p u q) {j : Nat} (hj : j < p.length) {s : Nat × Bool}
    (hq : Queued U.isLetter U.isDigit E t (p.take (j + 1)) s) : q[j]? = some s := by
  obtain ⟨hl, ht⟩ := reaches_take hr
  obtain ⟨w, hw⟩ := ht (j + 1) (by omega)
  obtain ⟨v, q', hq'⟩ := queued_reaches hq
  obtain ⟨-, he⟩ := reaches_functional hU hw hq' rfl
  have hlen : q'.length = j := by
    have := congrArg List.length he
    simp only [List.length_take, List.length_append, List.length_singleton] at this
    omega
  have := congrArg (fun l => l[j]?) he
  simp only [List.getElem?_take, Nat.lt_succ_self, if_true] at this
  rw [this, List.getElem?_append_right (by omega), hlen]
  simp

theorem madeAt_unique {grow : Nat → Nat} {j m m' : Nat} (h : MadeAt grow j m) (h' : MadeAt grow j m') : m = m' := by
  obtain ⟨a1, a2, a3⟩ := h
  obtain ⟨b1, b2, b3⟩ := h'
  rcases Nat.lt_trichotomy m m' with hlt | rfl | hlt
  · have := a3 m' hlt b1; omega
  · rfl
  · have := b3 m hlt a1; omega

/-- The rule gives one step. -/
theorem recorded_unique (hU : TablesOk U.isLetter U.isDigit) {grow : Nat → Nat} {p : List Nat} {j : Nat} {s s' : Nat × Bool}
    (h : RecordedStep U.isLetter U.isDigit grow E t p j s) (h' : RecordedStep U.isLetter U.isDigit grow E t p j s') : s = s' := by
  obtain ⟨m, c, hm, ⟨a1, a2, a3⟩, a4⟩ := h
  obtain ⟨m', c', hm', ⟨b1, b2, b3⟩, b4⟩ := h'
  have := madeAt_unique hm hm'
  subst this
  have : c = c' := by
    rcases a4 c' s' b1 b2 b3 with h | h
    · exact h.symm
    · rcases b4 c s a1 a2 a3 with h2 | h2
      · exact h2
      · exact absurd h2 (fun h2 => pathLt_asymm h h2)
  subst this
  obtain ⟨v, q, hq⟩ := queued_reaches a1
  obtain ⟨v', q', hq'⟩ := queued_reaches b1
  obtain ⟨-, he⟩ := reaches_functional hU hq hq' rfl
  have := (List.append_inj' he rfl).2
  simpa using this

theorem pathLt_either : ∀ {p q : List Nat}, p.length = q.length → p ≠ q → PathLt p q ∨ PathLt q p
  | [], [], _, h => absurd rfl h
  | [], _ :: _, h, _ => by simp at h
  | _ :: _, [], h, _ => by simp at h
  | a :: p, b :: q, h, hne => by
    simp only [PathLt]
    rcases Nat.lt_trichotomy a b with h1 | rfl | h1
    · exact Or.inl (Or.inl h1)
    · rcases pathLt_either (p := p) (q := q) (by simpa using h) (by rintro rfl; exact hne rfl) with h2 | h2
      · exact Or.inl (Or.inr ⟨rfl, h2⟩)
      · exact Or.inr (Or.inr ⟨rfl, h2⟩)
    · exact Or.inr (Or.inl h1)

/-- The parent of a first path is a first path. -/
theorem canonical_parent {letter digit : Nat → Bool} {p : List Nat} {u : TId} {q : List (Nat × Bool)} {fs : List FieldDef} {i : Nat}
    {sf : FieldDef} {v : TId} {ptr : Bool} (hr : Reaches letter digit E t p u q) (hf : HasFields E u fs) (hi : fs[i]? = some sf)
    (hp : Promotes letter digit E sf v ptr) (hc : Canonical letter digit E t (p ++ [i]) v) : Canonical letter digit E t p u := by
  refine ⟨⟨q, hr⟩, ?_⟩
  intro p' q' hr'
  rcases hc.2 _ _ (.step hr' hf hi hp) with h | h | ⟨h, h'⟩
  · exact Or.inl (append_single_inj h).1
  · right; left; simpa using h
  · have hl : p.length = p'.length := by simpa using h
    by_cases he : p' = p
    · exact Or.inl he
    · right; right
      refine ⟨hl, ?_⟩
      rcases pathLt_either hl (fun h => he h.symm) with h1 | h1
      · exact h1
      · exact absurd (pathLt_append [i] [i] hl.symm h1) (fun h2 => pathLt_asymm h' h2)

theorem canonical_take {letter digit : Nat → Bool} {p : List Nat} {u : TId} {q : List (Nat × Bool)} (h : Reaches letter digit E t p u q) :
    Canonical letter digit E t p u → ∀ n, n ≤ p.length → ∃ w, Canonical letter digit E t (p.take n) w := by
  induction h with
  | here =>
    intro hc n hn
    exact ⟨t, by simpa using hc⟩
  | @step p u q fs i sf v ptr hr hf hi hp ih =>
    intro hc n hn
    by_cases hn' : n ≤ p.length
    · rw [List.take_append_of_le_length hn']
      exact ih (canonical_parent hr hf hi hp hc) n hn'
    · rw [List.take_of_length_le (by simp at hn ⊢; omega)]
      exact ⟨v, hc⟩

/-- The last step of a path. -/
theorem reaches_last {letter digit : Nat → Bool} {a : List Nat} {i : Nat} {v : TId} {q : List (Nat × Bool)}
    (h : Reaches letter digit E t (a ++ [i]) v q) : ∃ w q' fs sf ptr, Reaches letter digit E t a w q' ∧ HasFields E w fs ∧
      fs[i]? = some sf ∧ Promotes letter digit E sf v ptr := by
  generalize he : a ++ [i] = p at h
  cases h with
  | here => simp at he
  | @step p u q fs i' sf v ptr hr hf hi hp =>
    obtain ⟨rfl, rfl⟩ := append_single_inj he
    exact ⟨u, q, fs, sf, ptr, hr, hf, hi, hp⟩

/-- Without a fork every struct has its own route. -/
theorem own_of_noFork (hU : TablesOk U.isLetter U.isDigit) {grow : Nat → Nat} (hs : NoSpareFork U.isLetter U.isDigit grow E t)
    (p : List Nat) : OwnRoute U.isLetter U.isDigit grow E t p := by
  intro u q hr j m c s hj hm ⟨⟨hq, hcl, hct⟩, _⟩
  obtain ⟨v, qc, hrc⟩ := queued_reaches hq
  have key : ∀ n, m + 1 + n ≤ j + 1 → c.take (m + 1 + n) = p.take (m + 1 + n) := by
    intro n
    induction n with
    | zero => intro _; exact hct
    | succ n ih =>
      intro hn
      have ih := ih (by omega)
      generalize hk : m + 1 + n = k at ih
      have hk1 : m + 1 + (n + 1) = k + 1 := by omega
      rw [hk1]
      have hck : k < c.length := by omega
      have hpk : k < p.length := by omega
      obtain ⟨w1, h1⟩ := (reaches_take hrc).2 (k + 1) (by omega)
      obtain ⟨w2, h2⟩ := (reaches_take hr).2 (k + 1) (by omega)
      have e1 : c.take (k + 1) = c.take k ++ [c[k]] := by rw [List.take_succ, List.getElem?_eq_getElem hck]; rfl
      have e2 : p.take (k + 1) = c.take k ++ [p[k]] := by rw [List.take_succ, List.getElem?_eq_getElem hpk, ih]; rfl
      rw [e1] at h1
      rw [e2] at h2
      obtain ⟨x1, q1, fs1, sf1, ptr1, a1, a2, a3, a4⟩ := reaches_last h1
      obtain ⟨x2, q2, fs2, sf2, ptr2, b1, b2, b3, b4⟩ := reaches_last h2
      obtain ⟨rfl, -⟩ := reaches_functional hU a1 b1 rfl
      have : fs1 = fs2 := by unfold HasFields at a2 b2; rw [a2] at b2; simpa using b2
      subst this
      have hcan : ∃ w, Canonical U.isLetter U.isDigit E t (c.take k) w := by
        obtain ⟨p0, w, fs, i, sf, v, ptr, rfl, hc0, -⟩ := hq
        obtain ⟨q0, hq0⟩ := hc0.1
        have hl : p0.length = j := by simpa using hcl
        rw [List.take_append_of_le_length (by omega)]
        exact canonical_take hq0 hc0 k (by omega)
      obtain ⟨w, hw⟩ := hcan
      obtain ⟨q0, hq0⟩ := hw.1
      obtain ⟨rfl, -⟩ := reaches_functional hU hq0 a1 rfl
      have hlen : (c.take k).length = k := by rw [List.length_take]; omega
      have := hs _ _ hw (by rw [hlen]; exact hm.2.2 k (by omega) (by omega)) _ _ _ _ _ _ _ _ _ a2 a3 b3 a4 b4
      rw [e1, e2, this]
  have hc : c = p.take (j + 1) := by
    have := key (j - m) (by have := hm.1; omega)
    have e : m + 1 + (j - m) = j + 1 := by have := hm.1; omega
    rw [e, List.take_of_length_le (by omega)] at this
    exact this
  subst hc
  exact queued_step hU hr hj hq

theorem apart_of_noFork (hU : TablesOk U.isLetter U.isDigit) {grow : Nat → Nat} (hs : NoSpareFork U.isLetter U.isDigit grow E t) :
    RoutesApart U.isLetter U.isDigit grow E t := fun _ p _ _ _ => own_of_noFork hU hs p

/-- The recorded field is chosen by the rule. -/
theorem structFields_chosen (hU : TablesOk U.isLetter U.isDigit) {grow : Grow} {sort : SortAlg} (hsort : SortOk sort) {fuel : Nat}
    {l : List Fld} (h : structFields E U grow sort fuel t = some l) {f : Fld} (hf : f ∈ l) :
    ∃ sf, ChosenField U.isLetter U.isDigit E t ⟨f.index, sf, f.name⟩ := by
  obtain ⟨log, flds, hb, hm, _, _⟩ := structFields_sel hsort h
  obtain ⟨p, u, i, sf, r, h1, h2, h3, h4, h5⟩ := (selected_exact hU hb).mp ⟨f, (hm f).mp hf, rfl, rfl, rfl⟩
  exact ⟨sf, p, u, i, r, f.tag, h1, h2, h3, h4, h5⟩

theorem recorded_split {grow : Grow} {f : Fld} {p : List Nat} {sf : FieldDef} (h5 : f.embedSeq.length = p.length + 1)
    (h6 : ∀ j, j < p.length → ∃ s, f.embedSeq[j]? = some s ∧ RecordedStep U.isLetter U.isDigit grow E t p j (s.offset, s.indir))
    (h7 : f.embedSeq[p.length]? = some ⟨sf.offset, false⟩) (hU : TablesOk U.isLetter U.isDigit) :
    ∃ rec, f.embedSeq.map Seq.pair = rec ++ [(sf.offset, false)] ∧ rec.length = p.length ∧
      ∀ j s, j < p.length → (rec[j]? = some s ↔ RecordedStep U.isLetter U.isDigit grow E t p j s) := by
  have hsplit : f.embedSeq = f.embedSeq.take p.length ++ [⟨sf.offset, false⟩] := by
    have hd : f.embedSeq.drop p.length = [⟨sf.offset, false⟩] := by
      have hl : (f.embedSeq.drop p.length).length = 1 := by rw [List.length_drop, h5]; omega
      have hg : (f.embedSeq.drop p.length)[0]? = some ⟨sf.offset, false⟩ := by simpa using h7
      match hm : f.embedSeq.drop p.length with
      | [] => rw [hm] at hl; cases hl
      | [a] => rw [hm] at hg; simp at hg; rw [hg]
      | _ :: _ :: _ => rw [hm] at hl; simp at hl
    rw [← hd, List.take_append_drop]
  refine ⟨(f.embedSeq.take p.length).map Seq.pair, ?_, ?_, ?_⟩
  · conv => lhs; rw [hsplit]
    simp [Seq.pair]
  · simp only [List.length_map, List.length_take, h5]; omega
  · intro j s hj
    obtain ⟨s', e1, e2⟩ := h6 j hj
    have : ((f.embedSeq.take p.length).map Seq.pair)[j]? = some (s'.offset, s'.indir) := by
      rw [List.getElem?_map, List.getElem?_take, if_pos hj, e1]; rfl
    rw [this, Option.some.injEq]
    constructor
    · rintro rfl; exact e2
    · intro hs; exact recorded_unique hU e2 hs

/-- The recorded route is the true one iff the steps are the struct's own. -/
theorem recorded_iff (hU : TablesOk U.isLetter U.isDigit) {grow : Grow} {p : List Nat} {u : TId} {q rec : List (Nat × Bool)}
    (hq : Reaches U.isLetter U.isDigit E t p u q) (hl : rec.length = p.length)
    (h6 : ∀ j s, j < p.length → (rec[j]? = some s ↔ RecordedStep U.isLetter U.isDigit grow E t p j s)) :
    rec = q ↔ OwnRoute U.isLetter U.isDigit grow E t p := by
  have hql := (reaches_take hq).1
  constructor
  · rintro rfl u' q' hq' j m c s hj hm hc
    obtain ⟨-, rfl⟩ := reaches_functional hU hq hq' rfl
    exact (h6 j s hj).mpr ⟨m, c, hm, hc⟩
  · intro hall
    apply List.ext_getElem?
    intro j
    by_cases hj : j < p.length
    · have hlt : j < rec.length := by omega
      have hget : rec[j]? = some rec[j] := List.getElem?_eq_getElem hlt
      obtain ⟨m, c, hm, hc⟩ := (h6 j _ hj).mp hget
      rw [hget, hall u q hq j m c _ hj hm hc]
    · rw [List.getElem?_eq_none (by omega), List.getElem?_eq_none (by omega)]

theorem structFields_route (hU : TablesOk U.isLetter U.isDigit) {grow : Grow} (hsafe : RoutesApart U.isLetter U.isDigit grow E t)
    {sort : SortAlg} (hsort : SortOk sort) {fuel : Nat} {l : List Fld}
    (h : structFields E U grow sort fuel t = some l) : ∀ f ∈ l, RouteOk E U t f := by
  intro f hf
  obtain ⟨p, u, i, sf, h1, h2, h3, h4, h5, h6, h7, h8⟩ := structFields_recorded hU hsort h f hf
  obtain ⟨sf', hch⟩ := structFields_chosen hU hsort h hf
  obtain ⟨q, hq⟩ := h2.1
  obtain ⟨rec, r1, r2, r3⟩ := recorded_split h5 h6 h7 hU
  have := (recorded_iff hU hq r2 r3).mpr (hsafe _ p i hch h1)
  subst this
  exact ⟨u, i, sf, ⟨⟨p, rec, hq, h1, r1⟩, h3, h4⟩, h8⟩

end Jettison.Proofs
