import Verif.Proofs.BfsInv

/-! # From the search to embedding paths -/

namespace Jettison.Proofs
open Jettison Jettison.Model Jettison.Spec

variable {E : Env} {U : UnicodeTab} {t : TId}

theorem nodeFields_get {u : TId} {i : Nat} {sf : FieldDef} :
    (nodeFields E u)[i]? = some sf ↔ ∃ fs, HasFields E u fs ∧ fs[i]? = some sf := by
  unfold nodeFields HasFields
  cases h : (E u).kind <;> simp [fieldsOfK]

theorem pathN_iff (hU : TablesOk U.isLetter U.isDigit) {u : TId} {p : List Nat} :
    PathN E U t (u, p) ↔ ∃ q, Reaches U.isLetter U.isDigit E t p u q := by
  constructor
  · intro h
    generalize hn : (u, p) = n at h
    induction h generalizing u p with
    | root => cases hn; exact ⟨[], .here⟩
    | @step n x hp hx ih =>
      subst hn
      obtain ⟨i, sf, ptr, e1, e2, e3⟩ := (pushOf_mem E U n _).mp hx
      obtain ⟨q, hq⟩ := @ih n.1 n.2 rfl
      obtain ⟨fs, hf, hi⟩ := nodeFields_get.mp e1
      simp only at e3 e2
      subst e3
      exact ⟨_, .step hq hf hi ((cls_embed hU).mp e2)⟩
  · rintro ⟨q, h⟩
    induction h with
    | here => exact .root
    | @step p u q fs i sf v ptr hr hf hi hp ih =>
      refine .step ih ?_
      rw [pushOf_mem]
      exact ⟨i, sf, ptr, nodeFields_get.mpr ⟨fs, hf, hi⟩, (cls_embed hU).mpr hp, rfl⟩

theorem pathN_functional {n m : Node} (h1 : PathN E U t n) : ∀ (_ : PathN E U t m), n.2 = m.2 → n = m := by
  induction h1 generalizing m with
  | root =>
    intro h2 he
    cases h2 with
    | root => rfl
    | step h3 h4 => have := push_len h4; rw [← he] at this; simp at this
  | @step n x hn hx ih =>
    intro h2 he
    cases h2 with
    | root => have := push_len hx; rw [he] at this; simp at this
    | @step n' _ h3 h4 =>
      obtain ⟨i, sf, ptr, e1, e2, e3⟩ := (pushOf_mem E U n x).mp hx
      obtain ⟨j, sf', ptr', f1, f2, f3⟩ := (pushOf_mem E U n' m).mp h4
      rw [e3, f3] at he
      have hl : n.2 = n'.2 ∧ i = j := by
        have := List.append_inj' he rfl
        simpa using this
      have hnn := ih h3 hl.1
      subst hnn
      rw [hl.2, f1] at e1
      simp only [Option.some.injEq] at e1
      subst e1
      rw [f2] at e2
      simp only [Cls.embed.injEq] at e2
      refine Prod.ext e2.1.symm ?_
      rw [e3, f3, hl.2]

theorem leavesFrom_mem (dup : Bool) (pre : List Seq) (path : List Nat) : ∀ (fs : List FieldDef) (k : Nat) (f : Fld),
    f ∈ leavesFrom E U dup pre path k fs ↔ ∃ j sf name tagged, fs[j]? = some sf ∧ cls E U sf = .leaf name tagged ∧
      f = mkFld E pre (path ++ [k + j]) sf name tagged (parseTag sf.tag).2
  | [], k, f => by simp [leavesFrom]
  | sf :: fs, k, f => by
    have ih := leavesFrom_mem dup pre path fs (k + 1) f
    have key : (∃ j sf' name tagged, (sf :: fs)[j]? = some sf' ∧ cls E U sf' = .leaf name tagged ∧
          f = mkFld E pre (path ++ [k + j]) sf' name tagged (parseTag sf'.tag).2) ↔
        (∃ name tagged, cls E U sf = .leaf name tagged ∧ f = mkFld E pre (path ++ [k]) sf name tagged (parseTag sf.tag).2) ∨
          ∃ j sf' name tagged, fs[j]? = some sf' ∧ cls E U sf' = .leaf name tagged ∧
            f = mkFld E pre (path ++ [k + 1 + j]) sf' name tagged (parseTag sf'.tag).2 := by
      constructor
      · rintro ⟨j, sf', name, tagged, h1, h2, h3⟩
        cases j with
        | zero => simp at h1; subst h1; exact Or.inl ⟨name, tagged, h2, h3⟩
        | succ j =>
          refine Or.inr ⟨j, sf', name, tagged, by simpa using h1, h2, ?_⟩
          rw [h3, show k + (j + 1) = k + 1 + j by omega]
      · rintro (⟨name, tagged, h2, h3⟩ | ⟨j, sf', name, tagged, h1, h2, h3⟩)
        · exact ⟨0, sf, name, tagged, by simp, h2, h3⟩
        · refine ⟨j + 1, sf', name, tagged, by simpa using h1, h2, ?_⟩
          rw [h3, show k + (j + 1) = k + 1 + j by omega]
    rw [key, ← ih]
    simp only [leavesFrom]
    cases hk : cls E U sf with
    | skip => simp
    | embed v ptr => simp
    | leaf n tg =>
      simp only [List.mem_append, Cls.leaf.injEq]
      constructor
      · rintro (h | h)
        · left
          refine ⟨n, tg, ⟨rfl, rfl⟩, ?_⟩
          cases dup <;> simpa using h
        · exact Or.inr h
      · rintro (⟨n', tg', ⟨rfl, rfl⟩, h⟩ | h)
        · left; subst h; cases dup <;> simp
        · exact Or.inr h

theorem mkFld_index (pre : List Seq) (ix : List Nat) (sf : FieldDef) (nm : Bytes) (tg : Bool) (o : List Bytes) :
    (mkFld E pre ix sf nm tg o).index = ix ∧ (mkFld E pre ix sf nm tg o).name = nm ∧ (mkFld E pre ix sf nm tg o).tag = tg := by
  simp [mkFld]

/-- The recorded fields. -/
theorem logFlds_mem {log ctx : List Scn} {f : Fld} : f ∈ logFlds E U log ctx ↔
    ∃ s ∈ log, ∃ i sf name tagged, (nodeFields E s.typ)[i]? = some sf ∧ cls E U sf = .leaf name tagged ∧
      f = mkFld E s.pre (s.index ++ [i]) sf name tagged (parseTag sf.tag).2 := by
  unfold logFlds leafFlds
  rw [List.mem_flatMap]
  constructor
  · rintro ⟨s, hs, hf⟩
    rw [leavesFrom_mem] at hf
    obtain ⟨j, sf, name, tagged, h1, h2, h3⟩ := hf
    exact ⟨s, hs, j, sf, name, tagged, h1, h2, by simpa using h3⟩
  · rintro ⟨s, hs, j, sf, name, tagged, h1, h2, h3⟩
    refine ⟨s, hs, ?_⟩
    rw [leavesFrom_mem]
    exact ⟨j, sf, name, tagged, h1, h2, by simpa using h3⟩

theorem append_single_inj {p q : List Nat} {i j : Nat} (h : p ++ [i] = q ++ [j]) : p = q ∧ i = j := by
  have := List.append_inj' h rfl
  simpa using this

/-- The index of a recorded field determines it. -/
theorem index_determines {log : List Scn} {flds : List Fld} (h : BfsRes E U t log flds) {f g : Fld}
    (hf : f ∈ flds) (hg : g ∈ flds) (he : f.index = g.index) : f = g := by
  rw [h.flds] at hf hg
  obtain ⟨s, hs, i, sf, nm, tg, a1, a2, a3⟩ := logFlds_mem.mp hf
  obtain ⟨s', hs', i', sf', nm', tg', b1, b2, b3⟩ := logFlds_mem.mp hg
  rw [a3, b3, (mkFld_index ..).1, (mkFld_index ..).1] at he
  obtain ⟨e1, e2⟩ := append_single_inj he
  have hk := pathN_functional (h.path s hs) (h.path s' hs') e1
  simp only [Scn.key, Prod.mk.injEq] at hk
  have hss := h.unique hs hs' hk.1
  subst hss
  subst e2
  rw [a1] at b1
  simp only [Option.some.injEq] at b1
  subst b1
  rw [a2] at b2
  simp only [Cls.leaf.injEq] at b2
  obtain ⟨rfl, rfl⟩ := b2
  rw [a3, b3]

theorem leaves_single (pre : List Seq) (path : List Nat) : ∀ (fs : List FieldDef) (k : Nat),
    (leavesFrom E U false pre path k fs).Pairwise (fun a b => a.index ≠ b.index)
  | [], k => by simp [leavesFrom]
  | sf :: fs, k => by
    have ih := leaves_single pre path fs (k + 1)
    simp only [leavesFrom]
    split
    · simp only [Bool.false_eq_true, if_false, List.singleton_append, List.pairwise_cons]
      refine ⟨?_, ih⟩
      intro g hg
      obtain ⟨j, _, _, _, _, _, hj⟩ := (leavesFrom_mem ..).mp hg
      rw [hj, (mkFld_index ..).1, (mkFld_index ..).1]
      intro he
      have := (append_single_inj he).2
      omega
    · exact ih

theorem leaves_double (pre : List Seq) (path : List Nat) (f : Fld) : ∀ (fs : List FieldDef) (k : Nat),
    f ∈ leavesFrom E U true pre path k fs → 2 ≤ (leavesFrom E U true pre path k fs).count f
  | [], k => by simp [leavesFrom]
  | sf :: fs, k => by
    have ih := leaves_double pre path f fs (k + 1)
    simp only [leavesFrom]
    cases hk : cls E U sf with
    | skip => exact ih
    | embed v ptr => exact ih
    | leaf nm tg =>
      simp only [if_true, List.mem_append, List.count_append]
      rintro (h | h)
      · have : f = mkFld E pre (path ++ [k]) sf nm tg (parseTag sf.tag).2 := by simpa using h
        subst this
        simp
      · have := ih h; omega

/-- How often a recorded field occurs. -/
theorem flds_count {log : List Scn} {flds : List Fld} (h : BfsRes E U t log flds) {s : Scn} (hs : s ∈ log) {f : Fld}
    {i : Nat} (hf : f ∈ flds) (hi : f.index = s.index ++ [i]) :
    (flds.count f ≤ 1 ↔ cntOf E U log s.index.length s.typ ≤ 1) := by
  obtain ⟨l1, l2, hl⟩ := List.append_of_mem hs
  have hnd := h.nodup
  have hother : ∀ s' ∈ l1 ++ l2, f ∉ leafFlds E U (decide (cntOf E U log s'.index.length s'.typ > 1)) s' := by
    intro s' hs' hm
    unfold leafFlds at hm
    obtain ⟨j, _, _, _, _, _, hj⟩ := (leavesFrom_mem ..).mp hm
    have hs'l : s' ∈ log := by
      rw [hl]; simp only [List.mem_append, List.mem_cons] at hs' ⊢
      rcases hs' with h | h
      · exact Or.inl h
      · exact Or.inr (Or.inr h)
    rw [hj, (mkFld_index ..).1] at hi
    have hk := pathN_functional (h.path s' hs'l) (h.path s hs) (append_single_inj hi).1
    simp only [Scn.key, Prod.mk.injEq] at hk
    rw [hl, List.map_append, List.map_cons] at hnd
    have hnd2 := (List.perm_middle.nodup_iff).mp hnd
    rw [List.nodup_cons] at hnd2
    apply hnd2.1
    rw [← hk.1, ← List.map_append]
    exact List.mem_map_of_mem hs'
  have hsplit : flds = logFlds E U l1 log ++ (leafFlds E U (decide (cntOf E U log s.index.length s.typ > 1)) s ++
      logFlds E U l2 log) := by
    rw [h.flds]
    conv => lhs; arg 3; rw [hl]
    simp [logFlds, List.flatMap_append]
  have h1 : (logFlds E U l1 log).count f = 0 := by
    rw [List.count_eq_zero]
    unfold logFlds
    rw [List.mem_flatMap]
    rintro ⟨s', hs', hm⟩
    exact hother s' (by simp [hs']) hm
  have h2 : (logFlds E U l2 log).count f = 0 := by
    rw [List.count_eq_zero]
    unfold logFlds
    rw [List.mem_flatMap]
    rintro ⟨s', hs', hm⟩
    exact hother s' (by simp [hs']) hm
  have hm : f ∈ leafFlds E U (decide (cntOf E U log s.index.length s.typ > 1)) s := by
    rw [hsplit] at hf
    simp only [List.mem_append] at hf
    rcases hf with hf | hf | hf
    · exact absurd hf (List.count_eq_zero.mp h1)
    · exact hf
    · exact absurd hf (List.count_eq_zero.mp h2)
  rw [hsplit, List.count_append, List.count_append, h1, h2]
  by_cases hd : cntOf E U log s.index.length s.typ > 1
  · simp only [hd, decide_true] at hm ⊢
    have := leaves_double s.pre s.index f _ _ hm
    unfold leafFlds
    omega
  · simp only [hd, decide_false] at hm ⊢
    have hle : (leafFlds E U false s).count f ≤ 1 := by
      have hp := leaves_single (E := E) (U := U) s.pre s.index (nodeFields E s.typ) 0
      have : (leafFlds E U false s).Nodup := hp.imp (fun h he => h (by rw [he]))
      exact List.nodup_iff_count.mp this f
    omega

/-- Recorded fields are promoted fields. -/
theorem recorded_promoted (hU : TablesOk U.isLetter U.isDigit) {log : List Scn} {flds : List Fld} (h : BfsRes E U t log flds)
    {f : Fld} (hf : f ∈ flds) : ∃ s ∈ log, ∃ i sf r, f.index = s.index ++ [i] ∧
      Promoted U.isLetter U.isDigit E t f.index s.typ i sf f.name f.tag r := by
  rw [h.flds] at hf
  obtain ⟨s, hs, i, sf, nm, tg, a1, a2, a3⟩ := logFlds_mem.mp hf
  obtain ⟨q, hq⟩ := (pathN_iff hU).mp (h.path s hs)
  refine ⟨s, hs, i, sf, q ++ [(sf.offset, false)], by rw [a3, (mkFld_index ..).1], ?_⟩
  rw [a3, (mkFld_index ..).1, (mkFld_index ..).2.1, (mkFld_index ..).2.2]
  exact ⟨⟨s.index, q, hq, rfl, rfl⟩, nodeFields_get.mp a1, (cls_leaf hU).mp a2⟩

theorem member_unique (hU : TablesOk U.isLetter U.isDigit) {sf : FieldDef} {n n' : Bytes} {g g' : Bool}
    (h : Member U.isLetter U.isDigit E sf n g) (h' : Member U.isLetter U.isDigit E sf n' g') : n = n' ∧ g = g' := by
  rw [← cls_leaf hU] at h h'
  rw [h] at h'
  simpa using h'

/-- A promoted field has a recorded counterpart of its declaration, not later. -/
theorem promoted_recorded (hU : TablesOk U.isLetter U.isDigit) {log : List Scn} {flds : List Fld} (h : BfsRes E U t log flds)
    {path : List Nat} {u : TId} {i : Nat} {sf : FieldDef} {nm : Bytes} {tg : Bool} {r : List (Nat × Bool)}
    (hp : Promoted U.isLetter U.isDigit E t path u i sf nm tg r) :
    ∃ s ∈ log, s.typ = u ∧ SLe (s.index ++ [i]) path ∧ ∃ f ∈ flds, f.index = s.index ++ [i] ∧ f.name = nm ∧ f.tag = tg := by
  obtain ⟨⟨p, q, hr, rfl, -⟩, hd, hm⟩ := hp
  obtain ⟨s, hs, h1, h2⟩ := h.least ((pathN_iff hU).mpr ⟨q, hr⟩)
  simp only at h1 h2
  refine ⟨s, hs, h1, h2.append i, mkFld E s.pre (s.index ++ [i]) sf nm tg (parseTag sf.tag).2, ?_, mkFld_index ..⟩
  rw [h.flds, logFlds_mem]
  exact ⟨s, hs, i, sf, nm, tg, by rw [h1]; exact nodeFields_get.mpr hd, (cls_leaf hU).mpr hm, rfl⟩

theorem promoted_functional (hU : TablesOk U.isLetter U.isDigit)
    {path : List Nat} {u u' : TId} {i i' : Nat} {sf sf' : FieldDef} {nm nm' : Bytes} {tg tg' : Bool} {r r' : List (Nat × Bool)}
    (hp : Promoted U.isLetter U.isDigit E t path u i sf nm tg r) (hp' : Promoted U.isLetter U.isDigit E t path u' i' sf' nm' tg' r') :
    u = u' ∧ i = i' ∧ sf = sf' ∧ nm = nm' ∧ tg = tg' := by
  obtain ⟨⟨p, q, hr, rfl, -⟩, hd, hm⟩ := hp
  obtain ⟨⟨p', q', hr', he, -⟩, hd', hm'⟩ := hp'
  obtain ⟨rfl, rfl⟩ := append_single_inj he
  have := pathN_functional ((pathN_iff hU).mpr ⟨q, hr⟩) ((pathN_iff hU).mpr ⟨q', hr'⟩) rfl
  simp only [Prod.mk.injEq, and_true] at this
  subst this
  have e1 := nodeFields_get.mpr hd
  have e2 := nodeFields_get.mpr hd'
  rw [e1] at e2
  simp only [Option.some.injEq] at e2
  subst e2
  obtain ⟨rfl, rfl⟩ := member_unique hU hm hm'
  exact ⟨rfl, rfl, rfl, rfl, rfl⟩

/-- The selected fields. -/
def Selected (flds : List Fld) (f : Fld) : Prop :=
  ∃ rest, flds.Perm (f :: rest) ∧ ∀ g ∈ rest, g.name = f.name → Beats f g

theorem not_beats_self {f g : Fld} (h : Beats f g) : f.index ≠ g.index ∨ f.tag ≠ g.tag := by
  rcases h with h | ⟨-, h1, h2⟩
  · left; intro he; rw [he] at h; omega
  · right; rw [h1, h2]; simp

theorem selected_mem {flds : List Fld} {f : Fld} (h : Selected flds f) : f ∈ flds := by
  obtain ⟨rest, hp, -⟩ := h
  exact hp.mem_iff.mpr List.mem_cons_self

theorem selected_iff {flds : List Fld} {f : Fld} :
    Selected flds f ↔ f ∈ flds ∧ flds.count f ≤ 1 ∧ ∀ g ∈ flds, g ≠ f → g.name = f.name → Beats f g := by
  constructor
  · intro h
    refine ⟨selected_mem h, ?_, ?_⟩
    · obtain ⟨rest, hp, hb⟩ := h
      rw [hp.count_eq, List.count_cons_self]
      have : rest.count f = 0 := by
        rw [List.count_eq_zero]
        intro hm
        rcases not_beats_self (hb f hm rfl) with h | h <;> exact h rfl
      omega
    · obtain ⟨rest, hp, hb⟩ := h
      intro g hg hne
      have := hp.mem_iff.mp hg
      simp only [List.mem_cons] at this
      rcases this with h | h
      · exact absurd h hne
      · exact hb g h
  · rintro ⟨hm, hc, hb⟩
    refine ⟨flds.erase f, List.perm_cons_erase hm, ?_⟩
    intro g hg hn
    refine hb g (List.mem_of_mem_erase hg) ?_ hn
    rintro rfl
    have : 0 < (flds.erase g).count g := List.count_pos_iff.mpr hg
    rw [List.count_erase_self] at this
    omega

end Jettison.Proofs
