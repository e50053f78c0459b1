import Verif.Proofs.Visible

/-! # The selected fields against the embedding paths -/

namespace Jettison.Proofs
open Jettison Jettison.Model Jettison.Spec

variable {E : Env} {U : UnicodeTab} {t : TId}

theorem structFields_sel {grow : Grow} {sort : SortAlg} (hsort : SortOk sort) {fuel : Nat} {l : List Fld}
    (h : structFields E U grow sort fuel t = some l) :
    ∃ log flds, BfsRes E U t log flds ∧ (∀ f, f ∈ l ↔ Selected flds f) ∧ l.Pairwise (fun a b => a.name ≠ b.name) ∧
      l.Pairwise (fun a b => PathLt a.index b.index) := by
  unfold structFields at h
  split at h
  · cases h
  · rename_i flds hb
    simp only [Option.some.injEq] at h
    obtain ⟨log, hlog⟩ := bfs_inv fuel 0 [] _ _ flds (init_inv E U t) hb
    have hperm := hsort.perm (fun x y : Fld => indexLess x.index y.index) (filterByVisibility (sort fldLess flds))
    rw [h] at hperm
    have hmem : ∀ f, f ∈ l ↔ Selected flds f := by
      intro f
      rw [hperm.mem_iff, select_mem hsort]
      rfl
    have hnames : l.Pairwise (fun a b => a.name ≠ b.name) := by
      have := select_names hsort flds
      exact (hperm.pairwise_iff (fun h he => h he.symm)).mpr this
    refine ⟨log, flds, hlog, hmem, hnames, ?_⟩
    have hs := hsort.sorted (fun x y : Fld => indexLess x.index y.index) (filterByVisibility (sort fldLess flds)) strictWeak_index
    rw [h] at hs
    have hand := List.pairwise_and_iff.mpr ⟨hs, hnames⟩
    refine hand.imp_of_mem ?_
    intro a b ha hb ⟨h1, h2⟩
    rw [← indexLess_iff]
    cases hlt : indexLess a.index b.index with
    | true => rfl
    | false =>
      have he := indexLess_total _ _ hlt h1
      have := index_determines hlog (selected_mem ((hmem a).mp ha)) (selected_mem ((hmem b).mp hb)) he
      exact absurd (by rw [this]) h2

/-- A count of two comes from two different pushes. -/
theorem two_of_count {log : List Scn} {flds : List Fld} (h : BfsRes E U t log flds) {k : Nat} {v : TId}
    (h2 : 2 ≤ cntOf E U log k v) : ∃ sp ∈ log, ∃ sq ∈ log, ∃ x ∈ pushOf E U sp.key, ∃ y ∈ pushOf E U sq.key,
      x.1 = v ∧ y.1 = v ∧ x.2 ≠ y.2 ∧ sp.index.length + 1 = k ∧ sq.index.length + 1 = k := by
  unfold cntOf at h2
  -- the pushed nodes are pairwise distinct
  have hnd : ((log.map Scn.key).flatMap (pushOf E U)).Pairwise (fun a b => a.2 ≠ b.2) := by
    have hn : (log.map Scn.key).Pairwise (fun a b => a.2 ≠ b.2) := by
      have := h.nodup
      rw [List.Nodup, List.pairwise_map] at this
      rw [List.pairwise_map]
      refine this.imp_of_mem ?_
      intro a b ha hb hne he
      have := pathN_functional (h.path a ha) (h.path b hb) he
      simp only [Scn.key, Prod.mk.injEq] at this
      exact hne this.1
    clear h2
    generalize log.map Scn.key = L at hn
    induction L with
    | nil => simp
    | cons n L ih =>
      rw [List.pairwise_cons] at hn
      rw [List.flatMap_cons, List.pairwise_append]
      refine ⟨?_, ih hn.2, ?_⟩
      · unfold pushOf
        rw [List.pairwise_map]
        refine (embedsFrom_sorted E U (nodeFields E n.1) 0).1.imp ?_
        intro a b hab he
        have := (append_single_inj he).2
        omega
      · intro x hx y hy he
        rw [List.mem_flatMap] at hy
        obtain ⟨m, hm, hy⟩ := hy
        obtain ⟨a, _, _, _, _, e1⟩ := (pushOf_mem E U n x).mp hx
        obtain ⟨b, _, _, _, _, e2⟩ := (pushOf_mem E U m y).mp hy
        rw [e1, e2] at he
        exact hn.1 m hm (append_single_inj he).1
  have hsub : (((log.filter (fun s' => s'.index.length + 1 == k)).map Scn.key).flatMap (pushOf E U)).Sublist
      ((log.map Scn.key).flatMap (pushOf E U)) := by
    generalize log = L
    induction L with
    | nil => simp
    | cons a L ih =>
      simp only [List.filter_cons]
      split
      · simp only [List.map_cons, List.flatMap_cons]
        exact List.Sublist.append (List.Sublist.refl _) ih
      · simp only [List.map_cons, List.flatMap_cons]
        exact ih.trans (List.sublist_append_right _ _)
  have hnd' := hnd.sublist hsub
  generalize hP : ((log.filter (fun s' => s'.index.length + 1 == k)).map Scn.key).flatMap (pushOf E U) = P at h2 hnd'
  have hmemP : ∀ x ∈ P, ∃ sp ∈ log, x ∈ pushOf E U sp.key ∧ sp.index.length + 1 = k := by
    intro x hx
    rw [← hP, List.mem_flatMap] at hx
    obtain ⟨n, hn, hx⟩ := hx
    rw [List.mem_map] at hn
    obtain ⟨s', hs', rfl⟩ := hn
    rw [List.mem_filter] at hs'
    exact ⟨s', hs'.1, hx, by simpa using hs'.2⟩
  have htwo : ∃ x ∈ P, ∃ y ∈ P, x.1 = v ∧ y.1 = v ∧ x.2 ≠ y.2 := by
    clear hP hsub hnd hmemP
    induction P with
    | nil => simp at h2
    | cons a P ih =>
      rw [List.pairwise_cons] at hnd'
      simp only [List.map_cons, List.count_cons] at h2
      by_cases ha : a.1 = v
      · have : 1 ≤ (P.map (·.1)).count v := by simp [ha] at h2; rw [List.one_le_count_iff]; simpa using h2
        rw [List.one_le_count_iff, List.mem_map] at this
        obtain ⟨y, hy, hy1⟩ := this
        exact ⟨a, List.mem_cons_self, y, List.mem_cons_of_mem _ hy, ha, hy1, hnd'.1 y hy⟩
      · obtain ⟨x, hx, y, hy, h3⟩ := ih (by simpa [ha] using h2) hnd'.2
        exact ⟨x, List.mem_cons_of_mem _ hx, y, List.mem_cons_of_mem _ hy, h3⟩
  obtain ⟨x, hx, y, hy, hx1, hy1, hne⟩ := htwo
  obtain ⟨sp, hsp, e1, e2⟩ := hmemP x hx
  obtain ⟨sq, hsq, e3, e4⟩ := hmemP y hy
  exact ⟨sp, hsp, sq, hsq, x, e1, y, e3, hx1, hy1, hne, e2, e4⟩

/-- A doubled record comes from another path as short. -/
theorem count_recorded {log : List Scn} {flds : List Fld} (h : BfsRes E U t log flds) (hU : TablesOk U.isLetter U.isDigit)
    {s : Scn} (hs : s ∈ log) {f : Fld} {i : Nat} (hf : f ∈ flds) (hi : f.index = s.index ++ [i]) (hc : ¬ flds.count f ≤ 1) :
    ∃ p q, p ≠ s.index ∧ p.length = s.index.length ∧ Reaches U.isLetter U.isDigit E t p s.typ q := by
  rw [flds_count h hs hf hi] at hc
  obtain ⟨sp, hsp, sq, hsq, x, hx, y, hy, hx1, hy1, hne, hl1, hl2⟩ := two_of_count h (k := s.index.length) (v := s.typ) (by omega)
  have fin : ∀ sz ∈ log, ∀ z ∈ pushOf E U sz.key, sz.index.length + 1 = s.index.length → z.1 = s.typ → z.2 ≠ s.index →
      ∃ p q, p ≠ s.index ∧ p.length = s.index.length ∧ Reaches U.isLetter U.isDigit E t p s.typ q := by
    intro sz hsz z hz hl hz1 hz2
    obtain ⟨q, hq⟩ := (pathN_iff hU).mp (show PathN E U t (z.1, z.2) from .step (h.path sz hsz) hz)
    rw [hz1] at hq
    exact ⟨z.2, q, hz2, by rw [push_len hz]; exact hl, hq⟩
  by_cases hxs : x.2 = s.index
  · exact fin sq hsq y hy hl2 hy1 (by rw [← hxs]; exact fun h => hne h.symm)
  · exact fin sp hsp x hx hl1 hx1 hxs

/-- A visible field is selected. -/
theorem visible_selected (hU : TablesOk U.isLetter U.isDigit) {log : List Scn} {flds : List Fld} (h : BfsRes E U t log flds)
    {path : List Nat} {nm : Bytes} {tg : Bool} (hv : Visible U.isLetter U.isDigit E t path nm tg) :
    ∃ f, Selected flds f ∧ f.index = path ∧ f.name = nm ∧ f.tag = tg := by
  obtain ⟨⟨u, i, sf, r, hp⟩, hw⟩ := hv
  obtain ⟨s, hs, hu, hle, f, hf, hfi, hfn, hft⟩ := promoted_recorded hU h hp
  -- the recorded one is at the same path
  have hpr := recorded_promoted hU h hf
  obtain ⟨s', hs', i', sf', r', hi', hpr⟩ := hpr
  have hpath : f.index = path := by
    rcases Classical.em (f.index = path) with he | he
    · exact he
    · rw [hfn, hft] at hpr
      have := hw _ _ _ _ _ _ hpr he
      rw [← hfi] at hle
      have := hle.len
      rcases hw _ _ _ _ _ _ hpr he with hw | ⟨-, h1, h2⟩
      · omega
      · rw [h1] at h2; cases h2
  refine ⟨f, selected_iff.mpr ⟨hf, ?_, ?_⟩, hpath, hfn, hft⟩
  · rcases Classical.em (flds.count f ≤ 1) with hc | hc
    · exact hc
    · exfalso
      obtain ⟨p, q, hne, hlen, hr⟩ := count_recorded h hU hs hf hfi hc
      have hp2 : Promoted U.isLetter U.isDigit E t (p ++ [i]) u i sf nm tg (q ++ [(sf.offset, false)]) :=
        ⟨⟨p, q, hu ▸ hr, rfl, rfl⟩, hp.decl, hp.member⟩
      have hne2 : p ++ [i] ≠ path := by
        rw [← hpath, hfi]; intro he; exact hne (append_single_inj he).1
      have hpl : path.length = (p ++ [i]).length := by rw [← hpath, hfi]; simp [hlen]
      rcases hw _ _ _ _ _ _ hp2 hne2 with hw | ⟨-, h1, h2⟩
      · omega
      · rw [h1] at h2; cases h2
  · intro g hg hne hgn
    obtain ⟨s', hs', i', sf', r', hi', hpg⟩ := recorded_promoted hU h hg
    rw [hgn, hfn] at hpg
    have hne2 : g.index ≠ path := by
      intro he; exact hne (index_determines h hg hf (by rw [he, hpath]))
    have := hw _ _ _ _ _ _ hpg hne2
    unfold Wins at this
    unfold Beats
    rw [hpath, hft]
    exact this

/-- A selected field wins over every promoted field of another declaration, and is
no deeper than those of its own. -/
theorem selected_wins (hU : TablesOk U.isLetter U.isDigit) {log : List Scn} {flds : List Fld} (h : BfsRes E U t log flds)
    {f : Fld} (hf : Selected flds f) : ∃ s ∈ log, ∃ i sf r, f.index = s.index ++ [i] ∧
      Promoted U.isLetter U.isDigit E t f.index s.typ i sf f.name f.tag r ∧
      ∀ path' u' i' sf' tg' r', Promoted U.isLetter U.isDigit E t path' u' i' sf' f.name tg' r' →
        ((u', i') ≠ (s.typ, i) → Wins f.index f.tag path' tg') ∧
        ((u', i') = (s.typ, i) → path' = f.index ∨ f.index.length < path'.length ∨
          (f.index.length = path'.length ∧ PathLt f.index path')) := by
  obtain ⟨hm, hc, hb⟩ := selected_iff.mp hf
  obtain ⟨s, hs, i, sf, r, hi, hp⟩ := recorded_promoted hU h hm
  refine ⟨s, hs, i, sf, r, hi, hp, ?_⟩
  intro path' u' i' sf' tg' r' hp'
  obtain ⟨s', hs', hu', hle, g, hg, hgi, hgn, hgt⟩ := promoted_recorded hU h hp'
  constructor
  · intro hne
    have hgf : g ≠ f := by
      rintro rfl
      rw [hi] at hgi
      obtain ⟨e1, e2⟩ := append_single_inj hgi
      have := pathN_functional (h.path s hs) (h.path s' hs') e1
      simp only [Scn.key, Prod.mk.injEq] at this
      exact hne (by rw [← hu', ← this.1, e2])
    have hbe := hb g hg hgf hgn
    rw [← hgi] at hle
    have hl := hle.len
    unfold Beats at hbe
    unfold Wins
    rw [← hgt]
    rcases hbe with hbe | ⟨h1, h2, h3⟩
    · left; omega
    · rcases Nat.lt_or_ge g.index.length path'.length with h4 | h4
      · left; omega
      · right; exact ⟨by omega, h2, h3⟩
  · intro he
    simp only [Prod.mk.injEq] at he
    have := h.unique hs' hs (hu'.trans he.1)
    subst this
    rw [he.2, ← hi] at hle
    rcases hle with h1 | h1 | h1
    · exact Or.inl h1.symm
    · exact Or.inr (Or.inl h1)
    · exact Or.inr (Or.inr h1)

/-- Two different pushes of one type double its fields. -/
theorem two_pushes {log : List Scn} {k : Nat} {v : TId} {sp sq : Scn} (hsp : sp ∈ log) (hsq : sq ∈ log)
    {x y : Node} (hx : x ∈ pushOf E U sp.key) (hy : y ∈ pushOf E U sq.key) (hxy : x ≠ y) (hx1 : x.1 = v) (hy1 : y.1 = v)
    (hlp : sp.index.length + 1 = k) (hlq : sq.index.length + 1 = k) : 2 ≤ cntOf E U log k v := by
  unfold cntOf
  generalize hP : ((log.filter (fun s' => s'.index.length + 1 == k)).map Scn.key).flatMap (pushOf E U) = P
  have mem : ∀ (sp : Scn) (x : Node), sp ∈ log → sp.index.length + 1 = k → x ∈ pushOf E U sp.key → x ∈ P := by
    intro sp x h1 h2 h3
    rw [← hP, List.mem_flatMap]
    exact ⟨sp.key, List.mem_map_of_mem (List.mem_filter.mpr ⟨h1, by simp [h2]⟩), h3⟩
  have m1 := mem sp x hsp hlp hx
  have m2 := mem sq y hsq hlq hy
  clear mem hP
  induction P with
  | nil => simp at m1
  | cons a P ih =>
    simp only [List.mem_cons] at m1 m2
    simp only [List.map_cons, List.count_cons]
    have one : ∀ z ∈ P, z.1 = v → 1 ≤ (P.map (·.1)).count v := by
      intro z hz hz1
      rw [List.one_le_count_iff, List.mem_map]
      exact ⟨z, hz, hz1⟩
    rcases m1 with rfl | m1
    · rcases m2 with rfl | m2
      · exact absurd rfl hxy
      · have := one y m2 hy1
        simp [hx1]; exact List.mem_map.mpr ⟨y, m2, hy1⟩ |> fun h => by simpa using h
    · rcases m2 with rfl | m2
      · have := one x m1 hx1
        simp [hy1]; exact List.mem_map.mpr ⟨x, m1, hx1⟩ |> fun h => by simpa using h
      · have := ih m1 m2; omega

/-- Without shared embedding, selected is visible. -/
theorem selected_visible (hU : TablesOk U.isLetter U.isDigit) {log : List Scn} {flds : List Fld} (h : BfsRes E U t log flds)
    (hns : NoSharedEmbedding U.isLetter U.isDigit E t) {f : Fld} (hf : Selected flds f) :
    Visible U.isLetter U.isDigit E t f.index f.name f.tag := by
  obtain ⟨s, hs, i, sf, r, hi, hp, hw⟩ := selected_wins hU h hf
  obtain ⟨hm, hc, -⟩ := selected_iff.mp hf
  refine ⟨⟨s.typ, i, sf, r, hp⟩, ?_⟩
  intro path' u' i' sf' tg' r' hp' hne
  obtain ⟨hw1, hw2⟩ := hw _ _ _ _ _ _ hp'
  by_cases hd : (u', i') = (s.typ, i)
  · rcases hw2 hd with h1 | h1 | ⟨h1, h2⟩
    · exact absurd h1 hne
    · exact Or.inl h1
    · exfalso
      simp only [Prod.mk.injEq] at hd
      obtain ⟨rfl, rfl⟩ := hd
      rw [flds_count h hs hm hi] at hc
      obtain ⟨⟨q, rq, hrq, rfl, -⟩, -, -⟩ := hp'
      rw [hi] at h1 hne
      have hlen : s.index.length = q.length := by simpa using h1
      have hqne : q ≠ s.index := fun he => hne (by rw [he])
      have hPq : PathN E U t (s.typ, q) := (pathN_iff hU).mpr ⟨rq, hrq⟩
      have hPs : PathN E U t (s.typ, s.index) := h.path s hs
      have hshort : ∀ p', PathN E U t (s.typ, p') → s.index.length ≤ p'.length := by
        intro p' hp'
        obtain ⟨s', hs', e1, e2⟩ := h.least hp'
        have := h.unique hs' hs e1
        subst this
        exact e2.len
      -- the parents
      have parent : ∀ p', PathN E U t (s.typ, p') → p'.length = s.index.length → p' ≠ [] →
          ∃ sp ∈ log, (s.typ, p') ∈ pushOf E U sp.key := by
        intro p' hp' hl' hnil
        generalize hn : (s.typ, p') = n at hp'
        cases hp' with
        | root => cases hn; exact absurd rfl hnil
        | @step m _ hm' hx =>
          subst hn
          obtain ⟨sm, hsm, e1, e2⟩ := h.least hm'
          have hml := push_len hx
          simp only at hml
          obtain ⟨a, sfa, ptra, a1, a2, a3⟩ := (pushOf_mem E U m _).mp hx
          -- sm.index = m.2
          have hml2 : m.2.length ≤ sm.index.length := by
            have hstep : PathN E U t (s.typ, sm.index ++ [a]) := by
              refine .step (h.path sm hsm) ?_
              rw [pushOf_mem]
              exact ⟨a, sfa, ptra, by simp only [Scn.key, e1]; exact a1, a2, rfl⟩
            have := hshort _ hstep
            simp at this; omega
          have heq : sm.index = m.2 := by
            rcases Classical.em (sm.index = m.2) with he | he
            · exact he
            · exfalso
              obtain ⟨q1, hq1⟩ := (pathN_iff hU).mp (h.path sm hsm)
              obtain ⟨q2, hq2⟩ := (pathN_iff hU).mp (show PathN E U t (m.1, m.2) from hm')
              rw [e1] at hq1
              obtain ⟨fs, hfs, hfa⟩ := nodeFields_get.mp a1
              refine hns m.1 sm.index m.2 q1 q2 hq1 hq2 he ?_ fs sfa s.typ ptra hfs (List.mem_of_getElem? hfa) ((cls_embed hU).mp a2)
              intro r' s'' hr'
              obtain ⟨sm', hsm', e3, e4⟩ := h.least ((pathN_iff hU).mpr ⟨s'', hr'⟩)
              have := h.unique hsm' hsm (e3.trans e1.symm)
              subst this
              have h5 := e4.len
              have h6 := e2.len
              simp only at h5
              exact ⟨h5, by omega⟩
          refine ⟨sm, hsm, ?_⟩
          rw [show sm.key = m from Prod.ext e1 heq]
          exact hx
      have hq0 : q ≠ [] := by
        rintro rfl
        have : s.index = [] := List.eq_nil_of_length_eq_zero (by simpa using hlen)
        exact hqne this.symm
      have hs0 : s.index ≠ [] := by
        intro he; rw [he] at hlen; exact hq0 (List.eq_nil_of_length_eq_zero (by simpa using hlen.symm))
      obtain ⟨sp, hsp, hx⟩ := parent s.index hPs rfl hs0
      obtain ⟨sq, hsq, hy⟩ := parent q hPq hlen.symm hq0
      have l1 := push_len hx
      have l2 := push_len hy
      simp only [Scn.key] at l1 l2
      have := two_pushes (k := s.index.length) (v := s.typ) hsp hsq hx hy
        (by intro he; simp only [Prod.mk.injEq, true_and] at he; exact hqne he.symm) rfl rfl (by omega) (by omega)
      omega
  · exact hw1 hd

theorem pathLt_asymm {p q : List Nat} (h1 : PathLt p q) (h2 : PathLt q p) : False := by
  rw [← indexLess_iff] at h1 h2
  have := indexLess_trans _ _ _ h1 h2
  rw [indexLess_irrefl] at this
  cases this

theorem SLe.antisymm {p q : List Nat} (h1 : SLe p q) (h2 : SLe q p) : p = q := by
  rcases h1 with h1 | h1 | ⟨h1, h1'⟩
  · exact h1
  · have := h2.len; omega
  · rcases h2 with h2 | h2 | ⟨h2, h2'⟩
    · exact h2.symm
    · omega
    · exact absurd h2' (fun h => pathLt_asymm h1' h)

theorem log_canonical (hU : TablesOk U.isLetter U.isDigit) {log : List Scn} {flds : List Fld} (h : BfsRes E U t log flds)
    {p : List Nat} {u : TId} : Canonical U.isLetter U.isDigit E t p u ↔ ∃ s ∈ log, s.typ = u ∧ s.index = p := by
  constructor
  · rintro ⟨⟨q, hq⟩, hl⟩
    obtain ⟨s, hs, h1, h2⟩ := h.least ((pathN_iff hU).mpr ⟨q, hq⟩)
    refine ⟨s, hs, h1, ?_⟩
    obtain ⟨q', hq'⟩ := (pathN_iff hU).mp (h.path s hs)
    rw [h1] at hq'
    have h3 : SLe p s.index := by
      rcases hl _ _ hq' with h | h | h
      · exact Or.inl h.symm
      · exact Or.inr (Or.inl h)
      · exact Or.inr (Or.inr h)
    exact SLe.antisymm h2 h3
  · rintro ⟨s, hs, rfl, rfl⟩
    obtain ⟨q', hq'⟩ := (pathN_iff hU).mp (h.path s hs)
    refine ⟨⟨q', hq'⟩, ?_⟩
    intro p' q'' hp'
    obtain ⟨s', hs', h1, h2⟩ := h.least ((pathN_iff hU).mpr ⟨q'', hp'⟩)
    have := h.unique hs' hs h1
    subst this
    rcases h2 with h | h | h
    · exact Or.inl h.symm
    · exact Or.inr (Or.inl h)
    · exact Or.inr (Or.inr h)

theorem log_twice (hU : TablesOk U.isLetter U.isDigit) {log : List Scn} {flds : List Fld} (h : BfsRes E U t log flds)
    {k : Nat} {u : TId} : PushedTwice U.isLetter U.isDigit E t k u ↔ 2 ≤ cntOf E U log k u := by
  constructor
  · rintro ⟨a, b, hne, ha, hb⟩
    have conv : ∀ a, CanonicalPush U.isLetter U.isDigit E t a u ∧ a.length = k → ∃ s ∈ log, (u, a) ∈ pushOf E U s.key ∧ s.index.length + 1 = k := by
      rintro a ⟨⟨p, w, fs, i, sf, ptr, rfl, hc, hf, hi, hp⟩, hl⟩
      obtain ⟨s, hs, rfl, rfl⟩ := (log_canonical hU h).mp hc
      refine ⟨s, hs, ?_, by simpa using hl⟩
      rw [pushOf_mem]
      exact ⟨i, sf, ptr, nodeFields_get.mpr ⟨fs, hf, hi⟩, (cls_embed hU).mpr hp, rfl⟩
    obtain ⟨s1, hs1, e1, e2⟩ := conv a ha
    obtain ⟨s2, hs2, e3, e4⟩ := conv b hb
    exact two_pushes hs1 hs2 e1 e3 (by simpa using hne) rfl rfl e2 e4
  · intro h2
    obtain ⟨sp, hsp, sq, hsq, x, hx, y, hy, hx1, hy1, hne, hl1, hl2⟩ := two_of_count h h2
    have conv : ∀ s ∈ log, ∀ x ∈ pushOf E U s.key, x.1 = u → CanonicalPush U.isLetter U.isDigit E t x.2 u := by
      intro s hs x hx hxu
      obtain ⟨i, sf, ptr, e1, e2, e3⟩ := (pushOf_mem E U _ x).mp hx
      obtain ⟨fs, hf, hi⟩ := nodeFields_get.mp e1
      rw [hxu] at e2
      exact ⟨s.index, s.typ, fs, i, sf, ptr, e3, (log_canonical hU h).mpr ⟨s, hs, rfl, rfl⟩, hf, hi, (cls_embed hU).mp e2⟩
    exact ⟨x.2, y.2, hne, ⟨conv sp hsp x hx hx1, by rw [push_len hx]; exact hl1⟩,
      ⟨conv sq hsq y hy hy1, by rw [push_len hy]; exact hl2⟩⟩

theorem selected_exact (hU : TablesOk U.isLetter U.isDigit) {log : List Scn} {flds : List Fld} (h : BfsRes E U t log flds)
    {path : List Nat} {nm : Bytes} {tg : Bool} :
    (∃ f, Selected flds f ∧ f.index = path ∧ f.name = nm ∧ f.tag = tg) ↔
      ∃ p u i sf r, path = p ++ [i] ∧ Promoted U.isLetter U.isDigit E t path u i sf nm tg r ∧
        Canonical U.isLetter U.isDigit E t p u ∧ ¬ PushedTwice U.isLetter U.isDigit E t p.length u ∧
        ∀ p' u' i' sf' tg' r', Promoted U.isLetter U.isDigit E t (p' ++ [i']) u' i' sf' nm tg' r' →
          Canonical U.isLetter U.isDigit E t p' u' → p' ++ [i'] ≠ path → Wins path tg (p' ++ [i']) tg' := by
  constructor
  · rintro ⟨f, hf, rfl, rfl, rfl⟩
    obtain ⟨hm, hc, hb⟩ := selected_iff.mp hf
    obtain ⟨s, hs, i, sf, r, hi, hp⟩ := recorded_promoted hU h hm
    refine ⟨s.index, s.typ, i, sf, r, hi, hp, (log_canonical hU h).mpr ⟨s, hs, rfl, rfl⟩, ?_, ?_⟩
    · rw [log_twice hU h]
      rw [flds_count h hs hm hi] at hc
      omega
    · intro p' u' i' sf' tg' r' hp' hcan hne
      obtain ⟨s', hs', rfl, rfl⟩ := (log_canonical hU h).mp hcan
      obtain ⟨s'', hs'', e1, -, g, hg, hgi, hgn, hgt⟩ := promoted_recorded hU h hp'
      have := h.unique hs'' hs' e1
      subst this
      have := hb g hg (by rintro rfl; exact hne hgi.symm) hgn
      unfold Beats at this
      unfold Wins
      rw [← hgi, ← hgt]; exact this
  · rintro ⟨p, u, i, sf, r, rfl, hp, hcan, htw, hw⟩
    obtain ⟨s, hs, rfl, rfl⟩ := (log_canonical hU h).mp hcan
    obtain ⟨s'', hs'', e1, -, f, hf, hfi, hfn, hft⟩ := promoted_recorded hU h hp
    have := h.unique hs'' hs e1
    subst this
    refine ⟨f, selected_iff.mpr ⟨hf, ?_, ?_⟩, hfi, hfn, hft⟩
    · rw [flds_count h hs hf hfi]
      rw [log_twice hU h] at htw
      omega
    · intro g hg hne hgn
      obtain ⟨s', hs', i', sf', r', hi', hpg⟩ := recorded_promoted hU h hg
      rw [hgn, hfn, hi'] at hpg
      have := hw _ _ _ _ _ _ hpg ((log_canonical hU h).mpr ⟨s', hs', rfl, rfl⟩) (by
        intro he
        exact hne (index_determines h hg hf (by rw [hi', hfi, he])))
      unfold Wins at this
      unfold Beats
      rw [hfi, hi', hft]; exact this

/-- Finite universes. -/
theorem nodup_subset_length {α : Type} [DecidableEq α] : ∀ (l T : List α), l.Nodup → (∀ x ∈ l, x ∈ T) → l.length ≤ T.length
  | [], T, _, _ => by simp
  | a :: l, T, h, hs => by
    rw [List.nodup_cons] at h
    have ih := nodup_subset_length l (T.erase a) h.2 (by
      intro x hx
      have hxa : x ≠ a := by rintro rfl; exact h.1 hx
      exact (List.mem_erase_of_ne hxa).mpr (hs x (List.mem_cons_of_mem _ hx)))
    have ha := hs a List.mem_cons_self
    rw [List.length_erase_of_mem ha] at ih
    have : 0 < T.length := List.length_pos_of_mem ha
    simp only [List.length_cons]; omega

/-- `T` contains `t` and is closed under promotion. -/
def ClosedUnder (letter digit : Nat → Bool) (E : Env) (t : TId) (T : List TId) : Prop :=
  t ∈ T ∧ ∀ u ∈ T, ∀ fs sf v ptr, HasFields E u fs → sf ∈ fs → Promotes letter digit E sf v ptr → v ∈ T

theorem pathN_closed (hU : TablesOk U.isLetter U.isDigit) {T : List TId} (hT : ClosedUnder U.isLetter U.isDigit E t T) :
    ∀ {n : Node}, PathN E U t n → n.1 ∈ T := by
  intro n hn
  induction hn with
  | root => exact hT.1
  | @step n x hn hx ih =>
    obtain ⟨i, sf, ptr, e1, e2, e3⟩ := (pushOf_mem E U n x).mp hx
    obtain ⟨fs, hf, hi⟩ := nodeFields_get.mp e1
    exact hT.2 n.1 ih fs sf x.1 ptr hf (List.mem_of_getElem? hi) ((cls_embed hU).mp e2)

theorem bfs_terminates (hU : TablesOk U.isLetter U.isDigit) {T : List TId} (hT : ClosedUnder U.isLetter U.isDigit E t T)
    (grow : Grow) : ∀ (fuel d : Nat) (log : List Scn) (seen : List TId) (st : ScanSt), BInv E U t d log seen st →
      T.length + 2 ≤ fuel + log.length → ∃ flds, bfs E U grow fuel seen st = some flds := by
  intro fuel
  induction fuel with
  | zero =>
    intro d log seen st h hl
    have := nodup_subset_length (log.map Scn.typ) T h.nodup (by
      intro x hx
      rw [List.mem_map] at hx
      obtain ⟨s, hs, rfl⟩ := hx
      exact pathN_closed hU hT (h.log_path s hs).1)
    simp at this; omega
  | succ fuel ih =>
    intro d log seen st h hl
    have hlog := nodup_subset_length (log.map Scn.typ) T h.nodup (by
      intro x hx
      rw [List.mem_map] at hx
      obtain ⟨s, hs, rfl⟩ := hx
      exact pathN_closed hU hT (h.log_path s hs).1)
    rw [List.length_map] at hlog
    rw [bfs]
    by_cases hn : st.next = []
    · rw [if_pos hn]; exact ⟨_, rfl⟩
    · rw [if_neg hn]
      obtain ⟨new, -, hnext, hinv⟩ := level_inv (grow := grow) h
      cases new with
      | nil =>
        simp only [List.map_nil, List.flatMap_nil, addNew, List.map_eq_nil_iff] at hnext
        cases fuel with
        | zero => omega
        | succ fuel =>
          simp only
          rw [bfs, if_pos hnext]; exact ⟨_, rfl⟩
      | cons a new =>
        refine ih (d + 1) _ _ _ hinv ?_
        simp; omega

end Jettison.Proofs
