import Verif.Proofs.Cls

/-! # The breadth first search of `structFields` -/

namespace Jettison.Proofs
open Jettison Jettison.Model Jettison.Spec

/-- A scanned struct: its type, path and the content of its `embedSeq`. -/
structure Scn where
  typ : TId
  index : List Nat
  pre : List Seq

abbrev Node := TId × List Nat

def Pend.key (p : Pend) : Node := (p.typ, p.index)
def Scn.key (s : Scn) : Node := (s.typ, s.index)

/-- Positions and targets of the promoting fields. -/
def embedsFrom (E : Env) (U : UnicodeTab) : Nat → List FieldDef → List (Nat × TId)
  | _, [] => []
  | i, sf :: t =>
    match cls E U sf with
    | .embed v _ => (i, v) :: embedsFrom E U (i + 1) t
    | _ => embedsFrom E U (i + 1) t

/-- The recorded fields of a struct, twice if `dup`. -/
def leavesFrom (E : Env) (U : UnicodeTab) (dup : Bool) (pre : List Seq) (path : List Nat) : Nat → List FieldDef → List Fld
  | _, [] => []
  | i, sf :: t =>
    match cls E U sf with
    | .leaf name tagged =>
      let nf := mkFld E pre (path ++ [i]) sf name tagged (parseTag sf.tag).2
      (if dup then [nf, nf] else [nf]) ++ leavesFrom E U dup pre path (i + 1) t
    | _ => leavesFrom E U dup pre path (i + 1) t

def nodeFields (E : Env) (t : TId) : List FieldDef := fieldsOfK (E t).kind

/-- The structs a node pushes. -/
def pushOf (E : Env) (U : UnicodeTab) (n : Node) : List Node :=
  (embedsFrom E U 0 (nodeFields E n.1)).map fun x => (x.2, n.2 ++ [x.1])

def leafFlds (E : Env) (U : UnicodeTab) (dup : Bool) (s : Scn) : List Fld :=
  leavesFrom E U dup s.pre s.index 0 (nodeFields E s.typ)

/-- Append the nodes whose type is not there yet. -/
def addNew : List Node → List Node → List Node
  | n, [] => n
  | n, x :: xs => if x.1 ∈ n.map (·.1) then addNew n xs else addNew (n ++ [x]) xs

theorem addNew_append (n a b : List Node) : addNew n (a ++ b) = addNew (addNew n a) b := by
  induction a generalizing n with
  | nil => rfl
  | cons x a ih => simp only [List.cons_append, addNew]; split <;> exact ih _

theorem addNew_mem (n a : List Node) : ∀ x ∈ addNew n a, x ∈ n ∨ x ∈ a := by
  induction a generalizing n with
  | nil => intro x hx; exact Or.inl hx
  | cons y a ih =>
    intro x hx
    simp only [addNew] at hx
    split at hx
    · rcases ih _ x hx with h | h
      · exact Or.inl h
      · exact Or.inr (List.mem_cons_of_mem _ h)
    · rcases ih _ x hx with h | h
      · simp only [List.mem_append, List.mem_singleton] at h
        rcases h with h | h
        · exact Or.inl h
        · subst h; exact Or.inr List.mem_cons_self
      · exact Or.inr (List.mem_cons_of_mem _ h)

theorem addNew_types (n a : List Node) (v : TId) :
    v ∈ (addNew n a).map (·.1) ↔ v ∈ n.map (·.1) ∨ v ∈ a.map (·.1) := by
  induction a generalizing n with
  | nil => simp [addNew]
  | cons y a ih =>
    simp only [addNew]
    split
    · rename_i h
      rw [ih]
      simp only [List.map_cons, List.mem_cons]
      constructor
      · rintro (h' | h')
        · exact Or.inl h'
        · exact Or.inr (Or.inr h')
      · rintro (h' | rfl | h')
        · exact Or.inl h'
        · exact Or.inl h
        · exact Or.inr h'
    · rw [ih]
      simp only [List.map_append, List.mem_append, List.map_cons, List.map_nil, List.mem_cons,
        List.not_mem_nil, or_false, or_assoc]

theorem addNew_nodup (n a : List Node) (h : (n.map (·.1)).Nodup) : ((addNew n a).map (·.1)).Nodup := by
  induction a generalizing n with
  | nil => exact h
  | cons y a ih =>
    simp only [addNew]
    split
    · exact ih n h
    · rename_i hy
      apply ih
      rw [List.map_append, List.nodup_append]
      refine ⟨h, by simp, ?_⟩
      intro x hx z hz
      simp only [List.map_cons, List.map_nil, List.mem_singleton] at hz
      subst hz
      intro he; subst he; exact hy hx

/-- The counter and the pending list agree. -/
def CntOk (st : ScanSt) : Prop := ∀ v, st.ncnt v = 0 ↔ v ∉ (st.next.map Pend.key).map (·.1)

/-- Slices point to existing arrays. -/
def ValidSeq (h : SeqHeap) (p : Pend) : Prop := p.seqs.arr < h.length

theorem append_read (grow : Grow) (h : SeqHeap) (s : SeqSlice) (x : Seq) (hv : s.arr < h.length) :
    (h.append grow s x).1.read s = h.read s := by
  unfold SeqHeap.append SeqHeap.read
  simp only
  split
  · simp only [List.getD_eq_getElem?_getD, List.getElem?_set_self hv, Option.getD_some]
    rw [List.take_set_of_le (Nat.le_refl _)]
  · simp only [List.getD_eq_getElem?_getD, List.getElem?_append_left hv]

theorem append_len (grow : Grow) (h : SeqHeap) (s : SeqSlice) (x : Seq) :
    h.length ≤ (h.append grow s x).1.length := by
  unfold SeqHeap.append
  simp only
  split <;> simp

theorem append_valid (grow : Grow) (h : SeqHeap) (s : SeqSlice) (x : Seq) (hv : s.arr < h.length) :
    (h.append grow s x).2.arr < (h.append grow s x).1.length := by
  unfold SeqHeap.append
  simp only
  split <;> simp [hv]

theorem incr_apply (c : TypeCount) (t v : TId) : c.incr t v = c v + if v = t then 1 else 0 := by
  simp only [TypeCount.incr]; split <;> simp

/-- The effect of scanning the fields of one struct. -/
theorem scanFrom_spec (E : Env) (U : UnicodeTab) (grow : Grow) (f : Pend) (cnt : TypeCount) :
    ∀ (fs : List FieldDef) (i : Nat) (st : ScanSt), CntOk st → ValidSeq st.heap f → (∀ p ∈ st.next, ValidSeq st.heap p) →
      let st' := scanFrom E U grow f cnt i fs st
      let em := embedsFrom E U i fs
      st'.flds = st.flds ++ leavesFrom E U (decide (cnt f.typ > 1)) (st.heap.read f.seqs) f.index i fs ∧
      (∀ v, st'.ncnt v = st.ncnt v + (em.map (·.2)).count v) ∧
      st'.next.map Pend.key = addNew (st.next.map Pend.key) (em.map fun x => (x.2, f.index ++ [x.1])) ∧
      CntOk st' ∧ (∀ p ∈ st'.next, ValidSeq st'.heap p) ∧ st.heap.length ≤ st'.heap.length
  | [], i, st, hc, hf, hn => by
    simp [scanFrom, embedsFrom, leavesFrom, addNew, hc]
    exact hn
  | sf :: fs, i, st, hc, hf, hn => by
    simp only [scanFrom]
    rw [scanField_eq]
    cases hk : cls E U sf with
    | skip =>
      simp only [embedsFrom, leavesFrom, hk]
      exact scanFrom_spec E U grow f cnt fs (i + 1) st hc hf hn
    | leaf name tagged =>
      have ih := scanFrom_spec E U grow f cnt fs (i + 1)
        { st with flds := st.flds ++ (if cnt f.typ > 1 then
            [mkFld E (st.heap.read f.seqs) (f.index ++ [i]) sf name tagged (parseTag sf.tag).2,
             mkFld E (st.heap.read f.seqs) (f.index ++ [i]) sf name tagged (parseTag sf.tag).2] else
            [mkFld E (st.heap.read f.seqs) (f.index ++ [i]) sf name tagged (parseTag sf.tag).2]) } hc hf hn
      simp only at ih ⊢
      simp only [embedsFrom, leavesFrom, hk]
      refine ⟨?_, ih.2⟩
      rw [ih.1]
      by_cases hd : cnt f.typ > 1 <;> simp [hd]
    | embed v ptr =>
      simp only
      split
      · rename_i h0
        have hnew : v ∉ (st.next.map Pend.key).map (·.1) := (hc v).mp h0
        have hl := append_len grow st.heap f.seqs ⟨sf.offset, ptr⟩
        have hr := append_read grow st.heap f.seqs ⟨sf.offset, ptr⟩ hf
        have hva := append_valid grow st.heap f.seqs ⟨sf.offset, ptr⟩ hf
        have ih := scanFrom_spec E U grow f cnt fs (i + 1)
          { st with
            ncnt := st.ncnt.incr v
            heap := (st.heap.append grow f.seqs ⟨sf.offset, ptr⟩).1
            next := st.next ++ [⟨v, f.index ++ [i], (st.heap.append grow f.seqs ⟨sf.offset, ptr⟩).2⟩] }
          (by
            intro w
            simp only [incr_apply, List.map_append, List.mem_append, List.map_cons, List.map_nil, Pend.key,
              List.mem_singleton]
            have := hc w
            by_cases hw : w = v
            · simp [hw]
            · simp only [hw, if_false, Nat.add_zero, or_false]; exact this)
          (by unfold ValidSeq at *; simp only; omega)
          (by
            intro p hp
            simp only [List.mem_append, List.mem_singleton] at hp
            rcases hp with hp | rfl
            · have := hn p hp; unfold ValidSeq at *; simp only; omega
            · exact hva)
        simp only at ih
        simp only [embedsFrom, leavesFrom, hk]
        obtain ⟨i1, i2, i3, i4, i5, i6⟩ := ih
        refine ⟨?_, ?_, ?_, i4, i5, by omega⟩
        · rw [i1, hr]
        · intro w
          rw [i2, incr_apply]
          simp only [List.map_cons, List.count_cons]
          by_cases hw : v = w
          · subst hw; simp; omega
          · have hw' : ¬ w = v := fun h => hw h.symm
            simp [hw, hw']
        · rw [i3]
          simp only [List.map_cons, addNew, hnew, if_false, List.map_append, Pend.key, List.map_nil]
      · rename_i h0
        have hold : v ∈ (st.next.map Pend.key).map (·.1) := by
          rcases Classical.em (v ∈ (st.next.map Pend.key).map (·.1)) with h | h
          · exact h
          · exact absurd ((hc v).mpr h) h0
        have ih := scanFrom_spec E U grow f cnt fs (i + 1) { st with ncnt := st.ncnt.incr v }
          (by
            intro w
            simp only [incr_apply]
            have := hc w
            by_cases hw : w = v
            · subst hw; simp only [if_true]
              constructor
              · intro h; omega
              · intro h; exact absurd hold h
            · simp only [hw, if_false, Nat.add_zero]; exact this) hf hn
        simp only at ih
        simp only [embedsFrom, leavesFrom, hk]
        obtain ⟨i1, i2, i3, i4, i5, i6⟩ := ih
        refine ⟨i1, ?_, ?_, i4, i5, i6⟩
        · intro w
          rw [i2, incr_apply]
          simp only [List.map_cons, List.count_cons]
          by_cases hw : v = w
          · subst hw; simp; omega
          · have hw' : ¬ w = v := fun h => hw h.symm
            simp [hw, hw']
        · rw [i3]
          simp only [List.map_cons, addNew]
          rw [if_pos hold]

/-- The nodes of a level that are scanned. -/
def fresh : List Node → List TId → List Node
  | [], _ => []
  | n :: t, seen => if n.1 ∈ seen then fresh t seen else n :: fresh t (n.1 :: seen)

theorem scanLevel_spec (E : Env) (U : UnicodeTab) (grow : Grow) (cnt : TypeCount) :
    ∀ (curr : List Pend) (seen : List TId) (st : ScanSt), CntOk st → (∀ p ∈ curr, ValidSeq st.heap p) →
      (∀ p ∈ st.next, ValidSeq st.heap p) →
      ∃ (log : List Scn),
      let r := scanLevel E U grow cnt curr seen st
      log.map Scn.key = fresh (curr.map Pend.key) seen ∧
      r.2.flds = st.flds ++ log.flatMap (fun s => leafFlds E U (decide (cnt s.typ > 1)) s) ∧
      (∀ v, v ∈ r.1 ↔ v ∈ seen ∨ v ∈ log.map Scn.typ) ∧
      (∀ v, r.2.ncnt v = st.ncnt v + (((log.map Scn.key).flatMap (pushOf E U)).map (·.1)).count v) ∧
      r.2.next.map Pend.key = addNew (st.next.map Pend.key) ((log.map Scn.key).flatMap (pushOf E U)) ∧
      CntOk r.2 ∧ (∀ p ∈ r.2.next, ValidSeq r.2.heap p) ∧ st.heap.length ≤ r.2.heap.length
  | [], seen, st, hc, h1, h2 => by
    refine ⟨[], ?_⟩
    simp [scanLevel, fresh, addNew, hc]
    exact h2
  | f :: t, seen, st, hc, h1, h2 => by
    simp only [scanLevel, List.map_cons, fresh]
    by_cases hs : f.typ ∈ seen
    · have hs' : seen.contains f.typ = true := by simpa using hs
      obtain ⟨log, h⟩ := scanLevel_spec E U grow cnt t seen st hc (fun p hp => h1 p (List.mem_cons_of_mem _ hp)) h2
      refine ⟨log, ?_⟩
      simp only [hs', if_true, Pend.key, hs]
      exact h
    · have hs' : ¬ seen.contains f.typ = true := by simpa using hs
      have hsf := scanFrom_spec E U grow f cnt (nodeFields E f.typ) 0 st hc (h1 f List.mem_cons_self) h2
      simp only at hsf
      obtain ⟨s1, s2, s3, s4, s5, s6⟩ := hsf
      have hrec := scanLevel_spec E U grow cnt t (f.typ :: seen) (scanFields E U grow f cnt st) s4
        (fun p hp => by
          have := h1 p (List.mem_cons_of_mem _ hp)
          unfold ValidSeq at *; exact Nat.lt_of_lt_of_le this s6) s5
      obtain ⟨log, r1, r2, r3, r4, r5, r6, r7, r8⟩ := hrec
      have hfs : scanFields E U grow f cnt st = scanFrom E U grow f cnt 0 (nodeFields E f.typ) st := rfl
      rw [if_neg hs']
      refine ⟨⟨f.typ, f.index, st.heap.read f.seqs⟩ :: log, ?_⟩
      simp only [Pend.key, hs, if_false]
      refine ⟨?_, ?_, ?_, ?_, ?_, r6, r7, ?_⟩
      · simp only [List.map_cons, Scn.key]
        congr 1
      · rw [r2, hfs, s1]
        simp only [List.flatMap_cons, leafFlds, List.append_assoc]
      · intro v
        rw [r3]
        simp only [List.mem_cons, List.map_cons]
        constructor
        · rintro ((h | h) | h)
          · exact Or.inr (Or.inl h)
          · exact Or.inl h
          · exact Or.inr (Or.inr h)
        · rintro (h | h | h)
          · exact Or.inl (Or.inr h)
          · exact Or.inl (Or.inl h)
          · exact Or.inr h
      · intro v
        rw [r4, hfs, s2]
        simp only [List.map_cons, List.flatMap_cons, List.map_append, List.count_append, Scn.key, pushOf, List.map_map]
        simp only [Function.comp_def]
        omega
      · rw [r5, hfs, s3]
        simp only [List.map_cons, List.flatMap_cons, addNew_append, Scn.key, pushOf]
      · exact Nat.le_trans s6 r8

end Jettison.Proofs
