import Verif.Proofs.Bfs

/-! # Invariant and result of the breadth first search -/

namespace Jettison.Proofs
open Jettison Jettison.Model Jettison.Spec

theorem embedsFrom_mem (E : Env) (U : UnicodeTab) : ∀ (fs : List FieldDef) (k : Nat) (x : Nat × TId),
    x ∈ embedsFrom E U k fs ↔ ∃ j sf ptr, fs[j]? = some sf ∧ cls E U sf = .embed x.2 ptr ∧ x.1 = k + j
  | [], k, x => by simp [embedsFrom]
  | sf :: fs, k, x => by
    have ih := embedsFrom_mem E U fs (k + 1) x
    have key : (∃ j sf' ptr, (sf :: fs)[j]? = some sf' ∧ cls E U sf' = .embed x.2 ptr ∧ x.1 = k + j) ↔
        ((∃ ptr, cls E U sf = .embed x.2 ptr) ∧ x.1 = k) ∨
          ∃ j sf' ptr, fs[j]? = some sf' ∧ cls E U sf' = .embed x.2 ptr ∧ x.1 = k + 1 + j := by
      constructor
      · rintro ⟨j, sf', ptr, h1, h2, h3⟩
        cases j with
        | zero => simp at h1; subst h1; exact Or.inl ⟨⟨ptr, h2⟩, by omega⟩
        | succ j => exact Or.inr ⟨j, sf', ptr, by simpa using h1, h2, by omega⟩
      · rintro (⟨⟨ptr, h2⟩, h3⟩ | ⟨j, sf', ptr, h1, h2, h3⟩)
        · exact ⟨0, sf, ptr, by simp, h2, by omega⟩
        · exact ⟨j + 1, sf', ptr, by simpa using h1, h2, by omega⟩
    rw [key, ← ih]
    simp only [embedsFrom]
    cases hk : cls E U sf with
    | skip => simp
    | leaf n t => simp
    | embed v ptr =>
      simp only [List.mem_cons, Cls.embed.injEq, exists_and_left, exists_eq', and_true]
      constructor
      · rintro (h | h)
        · subst h; exact Or.inl ⟨rfl, rfl⟩
        · exact Or.inr h
      · rintro (⟨h1, h2⟩ | h)
        · exact Or.inl (by rw [← h2, h1])
        · exact Or.inr h

theorem pushOf_mem (E : Env) (U : UnicodeTab) (n x : Node) :
    x ∈ pushOf E U n ↔ ∃ i sf ptr, (nodeFields E n.1)[i]? = some sf ∧ cls E U sf = .embed x.1 ptr ∧ x.2 = n.2 ++ [i] := by
  unfold pushOf
  simp only [List.mem_map, embedsFrom_mem]
  constructor
  · rintro ⟨y, ⟨j, sf, ptr, h1, h2, h3⟩, rfl⟩
    exact ⟨j, sf, ptr, h1, h2, by simp [h3]⟩
  · rintro ⟨j, sf, ptr, h1, h2, h3⟩
    refine ⟨(j, x.1), ⟨j, sf, ptr, h1, h2, by simp⟩, ?_⟩
    rw [← h3]

theorem embedsFrom_sorted (E : Env) (U : UnicodeTab) : ∀ (fs : List FieldDef) (k : Nat),
    (embedsFrom E U k fs).Pairwise (fun a b => a.1 < b.1) ∧ ∀ x ∈ embedsFrom E U k fs, k ≤ x.1
  | [], k => by simp [embedsFrom]
  | sf :: fs, k => by
    obtain ⟨h1, h2⟩ := embedsFrom_sorted E U fs (k + 1)
    have h2' : ∀ x ∈ embedsFrom E U (k + 1) fs, k ≤ x.1 := fun x hx => by have := h2 x hx; omega
    simp only [embedsFrom]
    split
    · refine ⟨List.pairwise_cons.mpr ⟨fun x hx => ?_, h1⟩, ?_⟩
      · have := h2 x hx; simp only; omega
      · intro x hx
        simp only [List.mem_cons] at hx
        rcases hx with rfl | hx
        · exact Nat.le_refl _
        · exact h2' x hx
    · exact ⟨h1, h2'⟩

/-- Paths of the search: repeated pushes. -/
inductive PathN (E : Env) (U : UnicodeTab) (t : TId) : Node → Prop
  | root : PathN E U t (t, [])
  | step {n x} : PathN E U t n → x ∈ pushOf E U n → PathN E U t x

theorem pathLt_trans {x y z : List Nat} (h1 : PathLt x y) (h2 : PathLt y z) : PathLt x z := by
  rw [← indexLess_iff] at *
  exact indexLess_trans _ _ _ h1 h2

theorem pathLt_append : ∀ {x y : List Nat} (a b : List Nat), x.length = y.length → PathLt x y → PathLt (x ++ a) (y ++ b)
  | [], [], a, b, _, h => by simp [PathLt] at h
  | _ :: _, [], a, b, hl, _ => by simp at hl
  | [], _ :: _, a, b, hl, _ => by simp at hl
  | c :: x, d :: y, a, b, hl, h => by
    simp only [PathLt] at h
    simp only [List.cons_append, PathLt]
    rcases h with h | ⟨h, h'⟩
    · exact Or.inl h
    · exact Or.inr ⟨h, pathLt_append a b (by simpa using hl) h'⟩

theorem pathLt_last : ∀ (p : List Nat) {i j : Nat}, i < j → PathLt (p ++ [i]) (p ++ [j])
  | [], i, j, h => Or.inl h
  | a :: p, i, j, h => Or.inr ⟨rfl, pathLt_last p h⟩

/-- Shorter, or as long and not after in declaration order. -/
def SLe (p q : List Nat) : Prop := p = q ∨ p.length < q.length ∨ (p.length = q.length ∧ PathLt p q)

theorem SLe.trans {p q r : List Nat} (h1 : SLe p q) (h2 : SLe q r) : SLe p r := by
  rcases h1 with rfl | h1 | ⟨h1, h1'⟩
  · exact h2
  · rcases h2 with rfl | h2 | ⟨h2, -⟩
    · exact Or.inr (Or.inl h1)
    · exact Or.inr (Or.inl (by omega))
    · exact Or.inr (Or.inl (by omega))
  · rcases h2 with rfl | h2 | ⟨h2, h2'⟩
    · exact Or.inr (Or.inr ⟨h1, h1'⟩)
    · exact Or.inr (Or.inl (by omega))
    · exact Or.inr (Or.inr ⟨by omega, pathLt_trans h1' h2'⟩)

theorem SLe.append {p q : List Nat} (h : SLe p q) (i : Nat) : SLe (p ++ [i]) (q ++ [i]) := by
  rcases h with rfl | h | ⟨h, h'⟩
  · exact Or.inl rfl
  · exact Or.inr (Or.inl (by simp; omega))
  · exact Or.inr (Or.inr ⟨by simp; omega, pathLt_append _ _ h h'⟩)

theorem SLe.len {p q : List Nat} (h : SLe p q) : p.length ≤ q.length := by
  rcases h with rfl | h | ⟨h, -⟩ <;> omega

theorem addNew_sublist (n a : List Node) : (addNew n a).Sublist (n ++ a) := by
  induction a generalizing n with
  | nil => simp [addNew]
  | cons x a ih =>
    simp only [addNew]
    split
    · exact (ih n).trans (List.Sublist.append (List.Sublist.refl _) (List.sublist_cons_self _ _))
    · have := ih (n ++ [x]); simpa using this

/-- The first node of each type survives, so it is the least. -/
theorem addNew_least (acc P : List Node) (h : (acc ++ P).Pairwise (fun a b => PathLt a.2 b.2)) :
    ∀ x ∈ acc ++ P, ∃ n ∈ addNew acc P, n.1 = x.1 ∧ (n.2 = x.2 ∨ PathLt n.2 x.2) := by
  induction P generalizing acc with
  | nil =>
    intro x hx
    exact ⟨x, by simpa [addNew] using hx, rfl, Or.inl rfl⟩
  | cons y P ih =>
    intro x hx
    simp only [addNew]
    split
    · rename_i hy
      have hs : (acc ++ P).Pairwise (fun a b => PathLt a.2 b.2) :=
        h.sublist (List.Sublist.append (List.Sublist.refl _) (List.sublist_cons_self _ _))
      simp only [List.mem_append, List.mem_cons] at hx
      rcases hx with hx | rfl | hx
      · exact ih acc hs x (by simp [hx])
      · simp only [List.mem_map] at hy
        obtain ⟨m, hm, hm1⟩ := hy
        obtain ⟨n, hn, hn1, hn2⟩ := ih acc hs m (by simp [hm])
        have hlt : PathLt m.2 x.2 := (List.pairwise_append.mp h).2.2 m hm x List.mem_cons_self
        refine ⟨n, hn, hn1.trans hm1, Or.inr ?_⟩
        rcases hn2 with hn2 | hn2
        · rw [hn2]; exact hlt
        · exact pathLt_trans hn2 hlt
      · exact ih acc hs x (by simp [hx])
    · exact ih (acc ++ [y]) (by simpa using h) x (by simpa using hx)

theorem fresh_eq : ∀ (l : List Node) (seen : List TId), (l.map (·.1)).Nodup →
    fresh l seen = l.filter (fun n => decide (n.1 ∉ seen))
  | [], seen, _ => by simp [fresh]
  | n :: t, seen, h => by
    simp only [List.map_cons, List.nodup_cons] at h
    simp only [fresh]
    split
    · rename_i hs
      simp [hs, fresh_eq t seen h.2]
    · rename_i hs
      rw [fresh_eq t _ h.2]
      simp only [hs, not_false_eq_true, decide_true, List.filter_cons_of_pos, List.cons.injEq, true_and]
      apply List.filter_congr
      intro x hx
      have : x.1 ≠ n.1 := by
        intro he; apply h.1; rw [← he]; exact List.mem_map_of_mem hx
      simp [this]

/-- How often type `v` is pushed by the scanned structs of depth `k - 1`. -/
def cntOf (E : Env) (U : UnicodeTab) (log : List Scn) (k : Nat) (v : TId) : Nat :=
  ((((log.filter (fun s => s.index.length + 1 == k)).map Scn.key).flatMap (pushOf E U)).map (·.1)).count v

/-- The fields recorded for the scanned structs. -/
def logFlds (E : Env) (U : UnicodeTab) (log ctx : List Scn) : List Fld :=
  log.flatMap fun s => leafFlds E U (decide (cntOf E U ctx s.index.length s.typ > 1)) s

/-- The invariant of the outer loop before depth `d`. -/
structure BInv (E : Env) (U : UnicodeTab) (t : TId) (d : Nat) (log : List Scn) (seen : List TId) (st : ScanSt) : Prop where
  nodup : (log.map Scn.typ).Nodup
  seen_iff : ∀ v, v ∈ seen ↔ v ∈ log.map Scn.typ
  log_path : ∀ s ∈ log, PathN E U t s.key ∧ s.index.length < d
  next_nodup : ((st.next.map Pend.key).map (·.1)).Nodup
  next_path : ∀ n ∈ st.next.map Pend.key, PathN E U t n ∧ n.2.length = d
  next_sorted : (st.next.map Pend.key).Pairwise (fun a b => PathLt a.2 b.2)
  closed : ∀ s ∈ log, ∀ x ∈ pushOf E U s.key, ∃ n ∈ log.map Scn.key ++ st.next.map Pend.key, n.1 = x.1 ∧ SLe n.2 x.2
  flds : st.flds = logFlds E U log log
  cnt : ∀ v, st.ncnt v = cntOf E U log d v
  root : (t, []) ∈ log.map Scn.key ++ st.next.map Pend.key
  valid : ∀ p ∈ st.next, ValidSeq st.heap p

theorem pushes_sorted (E : Env) (U : UnicodeTab) (d : Nat) : ∀ (l : List Node), l.Pairwise (fun a b => PathLt a.2 b.2) →
    (∀ n ∈ l, n.2.length = d) → (l.flatMap (pushOf E U)).Pairwise (fun a b => PathLt a.2 b.2)
  | [], _, _ => by simp
  | n :: l, hs, hl => by
    rw [List.flatMap_cons, List.pairwise_append]
    rw [List.pairwise_cons] at hs
    refine ⟨?_, pushes_sorted E U d l hs.2 (fun m hm => hl m (List.mem_cons_of_mem _ hm)), ?_⟩
    · unfold pushOf
      rw [List.pairwise_map]
      exact (embedsFrom_sorted E U (nodeFields E n.1) 0).1.imp (fun h => pathLt_last _ h)
    · intro x hx y hy
      rw [List.mem_flatMap] at hy
      obtain ⟨m, hm, hy⟩ := hy
      obtain ⟨i, -, -, -, -, hi⟩ := (pushOf_mem E U n x).mp hx
      obtain ⟨j, -, -, -, -, hj⟩ := (pushOf_mem E U m y).mp hy
      rw [hi, hj]
      exact pathLt_append _ _ (by rw [hl n List.mem_cons_self, hl m (List.mem_cons_of_mem _ hm)]) (hs.1 m hm)

theorem push_len {E : Env} {U : UnicodeTab} {n x : Node} (h : x ∈ pushOf E U n) : x.2.length = n.2.length + 1 := by
  obtain ⟨i, -, -, -, -, hi⟩ := (pushOf_mem E U n x).mp h
  rw [hi]; simp

theorem cntOf_append (E : Env) (U : UnicodeTab) (a b : List Scn) (k : Nat) (v : TId) :
    cntOf E U (a ++ b) k v = cntOf E U a k v + cntOf E U b k v := by
  simp [cntOf, List.flatMap_append, List.count_append]

theorem cntOf_none (E : Env) (U : UnicodeTab) (a : List Scn) (k : Nat) (v : TId) (h : ∀ s ∈ a, s.index.length + 1 ≠ k) :
    cntOf E U a k v = 0 := by
  have : a.filter (fun s => s.index.length + 1 == k) = [] := by
    rw [List.filter_eq_nil_iff]; intro s hs; simp [h s hs]
  simp [cntOf, this]

theorem cntOf_all (E : Env) (U : UnicodeTab) (a : List Scn) (k : Nat) (v : TId) (h : ∀ s ∈ a, s.index.length + 1 = k) :
    cntOf E U a k v = (((a.map Scn.key).flatMap (pushOf E U)).map (·.1)).count v := by
  have : a.filter (fun s => s.index.length + 1 == k) = a := by
    rw [List.filter_eq_self]; intro s hs; simp [h s hs]
  simp [cntOf, this]

theorem logFlds_congr (E : Env) (U : UnicodeTab) (log c1 c2 : List Scn)
    (h : ∀ s ∈ log, cntOf E U c1 s.index.length s.typ = cntOf E U c2 s.index.length s.typ) :
    logFlds E U log c1 = logFlds E U log c2 := by
  unfold logFlds
  rw [List.flatMap_def, List.flatMap_def]
  congr 1
  apply List.map_congr_left
  intro s hs
  rw [h s hs]

theorem level_inv {E : Env} {U : UnicodeTab} {t : TId} {grow : Grow} {d : Nat} {log : List Scn} {seen : List TId} {st : ScanSt}
    (h : BInv E U t d log seen st) :
    ∃ new : List Scn,
      let r := scanLevel E U grow st.ncnt st.next seen { flds := st.flds, next := [], ncnt := fun _ => 0, heap := st.heap }
      new.map Scn.key = (st.next.map Pend.key).filter (fun n => decide (n.1 ∉ seen)) ∧
      r.2.next.map Pend.key = addNew [] ((new.map Scn.key).flatMap (pushOf E U)) ∧
      BInv E U t (d + 1) (log ++ new) r.1 r.2 := by
  obtain ⟨new, r1, r2, r3, r4, r5, r6, r7, r8⟩ := scanLevel_spec E U grow st.ncnt st.next seen
    { flds := st.flds, next := [], ncnt := fun _ => 0, heap := st.heap }
    (by intro v; simp) h.valid (by simp)
  rw [fresh_eq _ _ h.next_nodup] at r1
  simp only [List.map_nil] at r5
  refine ⟨new, r1, r5, ?_⟩
  have newIn : ∀ s ∈ new, s.key ∈ st.next.map Pend.key ∧ s.typ ∉ seen := by
    intro s hs
    have : s.key ∈ new.map Scn.key := List.mem_map_of_mem hs
    rw [r1, List.mem_filter] at this
    exact ⟨this.1, of_decide_eq_true this.2⟩
  have newPath : ∀ s ∈ new, PathN E U t s.key ∧ s.index.length = d := fun s hs =>
    h.next_path _ (newIn s hs).1
  have newSorted : (new.map Scn.key).Pairwise (fun a b => PathLt a.2 b.2) := by
    rw [r1]; exact h.next_sorted.sublist List.filter_sublist
  have newTyp : new.map Scn.typ = (new.map Scn.key).map (·.1) := by
    rw [List.map_map]; rfl
  have newNodup : (new.map Scn.typ).Nodup := by
    rw [newTyp, r1]
    exact h.next_nodup.sublist (List.Sublist.map _ List.filter_sublist)
  have pushSorted := pushes_sorted E U d (new.map Scn.key) newSorted (by
    intro n hn
    rw [List.mem_map] at hn
    obtain ⟨s, hs, rfl⟩ := hn
    exact (newPath s hs).2)
  have seenLog : ∀ n ∈ st.next.map Pend.key, ∃ m ∈ (log ++ new).map Scn.key, m.1 = n.1 ∧ SLe m.2 n.2 := by
    intro n hn
    by_cases hs : n.1 ∈ seen
    · rw [h.seen_iff, List.mem_map] at hs
      obtain ⟨s, hs, hst⟩ := hs
      refine ⟨s.key, by simp; exact Or.inl ⟨s, hs, rfl⟩, hst, Or.inr (Or.inl ?_)⟩
      have h1 := (h.log_path s hs).2
      have h2 := (h.next_path n hn).2
      simp only [Scn.key]; omega
    · refine ⟨n, ?_, rfl, Or.inl rfl⟩
      rw [List.map_append, List.mem_append]
      right
      rw [r1, List.mem_filter]
      exact ⟨hn, by simpa using hs⟩
  refine ⟨?_, ?_, ?_, ?_, ?_, ?_, ?_, ?_, ?_, ?_, r7⟩
  · rw [List.map_append, List.nodup_append]
    refine ⟨h.nodup, newNodup, ?_⟩
    intro a ha b hb hab
    subst hab
    rw [List.mem_map] at hb
    obtain ⟨s, hs, rfl⟩ := hb
    exact (newIn s hs).2 ((h.seen_iff _).mpr ha)
  · intro v
    rw [r3, h.seen_iff, List.map_append, List.mem_append]
  · intro s hs
    rw [List.mem_append] at hs
    rcases hs with hs | hs
    · have := h.log_path s hs; exact ⟨this.1, by omega⟩
    · have := newPath s hs; exact ⟨this.1, by omega⟩
  · rw [r5]; exact addNew_nodup _ _ (by simp)
  · intro n hn
    rw [r5] at hn
    rcases addNew_mem _ _ n hn with hn | hn
    · simp at hn
    · rw [List.mem_flatMap] at hn
      obtain ⟨m, hm, hn⟩ := hn
      rw [List.mem_map] at hm
      obtain ⟨s, hs, rfl⟩ := hm
      have h1 := newPath s hs
      refine ⟨PathN.step h1.1 hn, ?_⟩
      rw [push_len hn]; simp only [Scn.key]; omega
  · rw [r5]
    have := addNew_sublist [] ((new.map Scn.key).flatMap (pushOf E U))
    exact pushSorted.sublist (by simpa using this)
  · intro s hs x hx
    rw [List.mem_append] at hs
    rcases hs with hs | hs
    · obtain ⟨n, hn, h1, h2⟩ := h.closed s hs x hx
      rw [List.mem_append] at hn
      rcases hn with hn | hn
      · refine ⟨n, ?_, h1, h2⟩
        rw [List.mem_append, List.map_append, List.mem_append]
        exact Or.inl (Or.inl hn)
      · obtain ⟨m, hm, h3, h4⟩ := seenLog n hn
        exact ⟨m, by rw [List.mem_append]; exact Or.inl hm, h3.trans h1, h4.trans h2⟩
    · have hx' : x ∈ [] ++ (new.map Scn.key).flatMap (pushOf E U) := by
        simp only [List.nil_append, List.mem_flatMap]
        exact ⟨s.key, List.mem_map_of_mem hs, hx⟩
      obtain ⟨n, hn, h1, h2⟩ := addNew_least [] _ (by simpa using pushSorted) x hx'
      refine ⟨n, ?_, h1, ?_⟩
      · rw [List.mem_append, r5]; exact Or.inr hn
      · rcases h2 with h2 | h2
        · exact Or.inl h2
        · refine Or.inr (Or.inr ⟨?_, h2⟩)
          rcases addNew_mem _ _ n hn with hn | hn
          · simp at hn
          · rw [List.mem_flatMap] at hn
            obtain ⟨m, hm, hn⟩ := hn
            rw [List.mem_map] at hm
            obtain ⟨s', hs', rfl⟩ := hm
            rw [push_len hn, push_len hx]
            have e1 := (newPath s' hs').2
            have e2 := (newPath s hs).2
            simp only [Scn.key]; omega
  · rw [r2, h.flds]
    have e1 : logFlds E U (log ++ new) (log ++ new) =
        logFlds E U log (log ++ new) ++ logFlds E U new (log ++ new) := by
      simp [logFlds, List.flatMap_append]
    rw [e1]
    congr 1
    · apply logFlds_congr
      intro s hs
      rw [cntOf_append, cntOf_none E U new]
      · omega
      · intro s' hs'
        have h1 := (newPath s' hs').2
        have h2 := (h.log_path s hs).2
        omega
    · unfold logFlds
      rw [List.flatMap_def, List.flatMap_def]
      congr 1
      apply List.map_congr_left
      intro s hs
      have h1 := (newPath s hs).2
      rw [h.cnt, cntOf_append, cntOf_none E U new, h1]
      · rfl
      · intro s' hs'
        have h1 := (newPath s' hs').2
        omega
  · intro v
    rw [r4, cntOf_append, cntOf_none E U log, cntOf_all E U new]
    · intro s hs; have := (newPath s hs).2; omega
    · intro s hs; have := (h.log_path s hs).2; omega
  · have := h.root
    rw [List.mem_append] at this
    rw [List.mem_append]
    left
    rcases this with h1 | h1
    · rw [List.map_append, List.mem_append]; exact Or.inl h1
    · obtain ⟨m, hm, h3, h4⟩ := seenLog _ h1
      have h5 : m.2 = [] := by
        have := h4.len
        simp only [List.length_nil, Nat.le_zero] at this
        exact List.eq_nil_of_length_eq_zero this
      have : m = (t, []) := Prod.ext h3 h5
      rw [← this]; exact hm

/-- What the search delivers. -/
structure BfsRes (E : Env) (U : UnicodeTab) (t : TId) (log : List Scn) (flds : List Fld) : Prop where
  nodup : (log.map Scn.typ).Nodup
  path : ∀ s ∈ log, PathN E U t s.key
  closed : ∀ s ∈ log, ∀ x ∈ pushOf E U s.key, ∃ s' ∈ log, s'.typ = x.1 ∧ SLe s'.index x.2
  flds : flds = logFlds E U log log
  root : ∃ s ∈ log, s.typ = t ∧ s.index = []

theorem bfs_inv {E : Env} {U : UnicodeTab} {t : TId} {grow : Grow} : ∀ (fuel d : Nat) (log : List Scn) (seen : List TId)
    (st : ScanSt) (flds : List Fld), BInv E U t d log seen st → bfs E U grow fuel seen st = some flds →
    ∃ log, BfsRes E U t log flds
  | 0, d, log, seen, st, flds, h, hb => by simp [bfs] at hb
  | fuel + 1, d, log, seen, st, flds, h, hb => by
    rw [bfs] at hb
    by_cases hn : st.next = []
    · rw [if_pos hn] at hb
      simp only [Option.some.injEq] at hb
      refine ⟨log, h.nodup, fun s hs => (h.log_path s hs).1, ?_, by rw [← hb, h.flds], ?_⟩
      · intro s hs x hx
        obtain ⟨n, hn', h1, h2⟩ := h.closed s hs x hx
        rw [hn] at hn'
        simp only [List.map_nil, List.append_nil, List.mem_map] at hn'
        obtain ⟨s', hs', rfl⟩ := hn'
        exact ⟨s', hs', h1, h2⟩
      · have := h.root
        rw [hn] at this
        simp only [List.map_nil, List.append_nil, List.mem_map, Scn.key, Prod.mk.injEq] at this
        exact this
    · rw [if_neg hn] at hb
      obtain ⟨new, -, -, hinv⟩ := level_inv (grow := grow) h
      exact bfs_inv fuel (d + 1) (log ++ new) _ _ flds hinv hb

theorem init_inv (E : Env) (U : UnicodeTab) (t : TId) :
    BInv E U t 0 [] [] { flds := [], next := [⟨t, [], ⟨0, 0⟩⟩], ncnt := fun _ => 0, heap := [[]] } where
  nodup := by simp
  seen_iff := by simp
  log_path := by simp
  next_nodup := by simp
  next_path := by
    intro n hn
    simp only [List.map_cons, Pend.key, List.map_nil, List.mem_singleton] at hn
    subst hn
    exact ⟨PathN.root, rfl⟩
  next_sorted := by simp
  closed := by simp
  flds := by simp [logFlds]
  cnt := by intro v; simp [cntOf]
  root := by simp [Pend.key]
  valid := by simp [ValidSeq]

/-- The search visits every struct once, at its shortest path. -/
theorem BfsRes.least {E : Env} {U : UnicodeTab} {t : TId} {log : List Scn} {flds : List Fld} (h : BfsRes E U t log flds) :
    ∀ {n : Node}, PathN E U t n → ∃ s ∈ log, s.typ = n.1 ∧ SLe s.index n.2 := by
  intro n hn
  induction hn with
  | root =>
    obtain ⟨s, hs, h1, h2⟩ := h.root
    exact ⟨s, hs, h1, Or.inl h2⟩
  | @step n x hn hx ih =>
    obtain ⟨s, hs, h1, h2⟩ := ih
    obtain ⟨i, sf, ptr, e1, e2, e3⟩ := (pushOf_mem E U n x).mp hx
    have hx' : (x.1, s.index ++ [i]) ∈ pushOf E U s.key := by
      rw [pushOf_mem]
      refine ⟨i, sf, ptr, ?_, e2, rfl⟩
      simp only [Scn.key, h1]; exact e1
    obtain ⟨s', hs', h3, h4⟩ := h.closed s hs _ hx'
    refine ⟨s', hs', h3, h4.trans ?_⟩
    rw [e3]
    exact h2.append i

theorem BfsRes.unique {E : Env} {U : UnicodeTab} {t : TId} {log : List Scn} {flds : List Fld} (h : BfsRes E U t log flds)
    {s s' : Scn} (hs : s ∈ log) (hs' : s' ∈ log) (he : s.typ = s'.typ) : s = s' := by
  have := h.nodup
  clear h
  induction log with
  | nil => simp at hs
  | cons a l ih =>
    simp only [List.map_cons, List.nodup_cons, List.mem_map, not_exists, not_and] at this
    simp only [List.mem_cons] at hs hs'
    rcases hs with rfl | hs
    · rcases hs' with rfl | hs'
      · rfl
      · exact absurd he.symm (this.1 s' hs')
    · rcases hs' with rfl | hs'
      · exact absurd he (this.1 s hs)
      · exact ih hs hs' this.2

end Jettison.Proofs
