import Verif.Proofs.Heaps

/-!
# One operation among many calls
-/

namespace Jettison.Proofs
open Jettison Jettison.Model

/-- The caches are right, and each placeholder not yet complete is owed by exactly one call. -/
structure GenInv (W : World) (σ : Shared) (K : Known) (ws : Nat → Owed) : Prop where
  slotsLen : K.slots.length = σ.slots.length
  closLen : K.closures.length = σ.closures.length
  cache : GoodCache W K σ.cache
  structs : ∀ k r, (k, r) ∈ σ.structs → RefKey K r k
  known : ∀ k ∈ K.slots, ∃ r, (k, r) ∈ σ.structs
  closures : ∀ (f : Nat) k c, K.closures[f]? = some k → σ.closures[f]? = some c → DenC W K k c
  slots : ∀ (c : Nat) s k, σ.slots[c]? = some s → K.slots[c]? = some k → (∀ f, s.ins = some f → K.closures[f]? = some k) ∧ (s.done = true → s.ins ≠ none)
  owed : ∀ i c x, (c, x) ∈ ws i → σ.slots[c]? = some ⟨x, false⟩
  ower : ∀ (c : Nat) s, σ.slots[c]? = some s → s.done = false → ∃ i x, (c, x) ∈ ws i
  owedOne : ∀ i j c x y, (c, x) ∈ ws i → (c, y) ∈ ws j → i = j
  owedNodup : ∀ i, ((ws i).map (·.1)).Nodup
  fields : ∀ t l, (t, l) ∈ σ.fields → structFields W.E W.U W.grow W.sort W.tfuel t = some l
  empties : ∀ t f, (t, f) ∈ σ.empties → f = emptyFuncOf (W.E t).kind

theorem assoc_mem {κ α : Type} [DecidableEq κ] {k : κ} : ∀ {l : List (κ × α)} {a : α}, assoc k l = some a → (k, a) ∈ l
  | [], _, h => by cases h
  | (k', b) :: l, a, h => by
    simp only [assoc] at h
    split at h
    · next e => subst e; cases h; exact List.mem_cons_self
    · exact List.mem_cons_of_mem _ (assoc_mem h)

theorem assoc_not_mem {κ α : Type} [DecidableEq κ] {k : κ} : ∀ {l : List (κ × α)} {a : α}, assoc k l = none → (k, a) ∉ l
  | [], _, _, h => by cases h
  | (k', b) :: l, a, h, hm => by
    simp only [assoc] at h
    split at h
    · cases h
    · next e =>
      rcases List.mem_cons.mp hm with hm | hm
      · cases hm; exact e rfl
      · exact assoc_not_mem h hm

variable {W : World} {σ σ' : Shared} {K K' : Known} {ws : Nat → Owed} {hs : Parts}

/-- Nothing about types changed. -/
theorem GenInv.congr (m : GenInv W σ K ws) (h1 : σ'.cache = σ.cache) (h2 : σ'.structs = σ.structs) (h3 : σ'.slots = σ.slots) (h4 : σ'.closures = σ.closures)
    (h5 : σ'.fields = σ.fields) (h6 : σ'.empties = σ.empties) : GenInv W σ' K ws :=
  ⟨by rw [h3]; exact m.slotsLen, by rw [h4]; exact m.closLen, by rw [h1]; exact m.cache, by rw [h2]; exact m.structs, by rw [h2]; exact m.known, by rw [h4]; exact m.closures,
   by rw [h3]; exact m.slots, by rw [h3]; exact m.owed, by rw [h3]; exact m.ower, m.owedOne, m.owedNodup, by rw [h5]; exact m.fields, by rw [h6]; exact m.empties⟩

theorem goodCache_le (h : K.Le K') {m : List (TId × CInstr)} (hg : GoodCache W K m) : GoodCache W K' m :=
  fun t c hm => let ⟨i, hi, hd⟩ := hg t c hm; ⟨i, hi, den_le h hd⟩

theorem snoc_get {α : Type} {l : List α} {a b : α} {i : Nat} (h : (l ++ [a])[i]? = some b) : l[i]? = some b ∨ (i = l.length ∧ b = a) := by
  rcases Nat.lt_trichotomy i l.length with hi | hi | hi
  · rw [List.getElem?_append_left hi] at h; exact .inl h
  · subst hi; simp at h; exact .inr ⟨rfl, h.symm⟩
  · rw [List.getElem?_eq_none (by simp; omega)] at h; cases h

/-- Another list of placeholders for one call. -/
def owe (ws : Nat → Owed) (i : Nat) (w : Owed) : Nat → Owed := fun j => if j = i then w else ws j

theorem owe_self (ws : Nat → Owed) (i : Nat) (w : Owed) : owe ws i w i = w := by simp [owe]
theorem owe_ne (ws : Nat → Owed) {i j : Nat} (w : Owed) (h : j ≠ i) : owe ws i w j = ws j := by simp [owe, h]

theorem GenInv.newSlot (m : GenInv W σ K ws) (i : Nat) (k : TId × Bool) :
    GenInv W { σ with structs := (k, .placeholder σ.slots.length) :: σ.structs, slots := σ.slots ++ [⟨none, false⟩] } { K with slots := K.slots ++ [k] }
      (owe ws i ((K.slots.length, none) :: ws i)) := by
  have hl := le_slot K k
  have old : ∀ {j c x}, (c, x) ∈ ws j → c < σ.slots.length := fun h => (List.getElem?_eq_some_iff.mp (m.owed _ _ _ h)).1
  have mem : ∀ {j c x}, (c, x) ∈ owe ws i ((K.slots.length, none) :: ws i) j → (c = σ.slots.length ∧ x = none ∧ j = i) ∨ (c, x) ∈ ws j := by
    intro j c x h
    by_cases hj : j = i
    · subst hj
      rw [owe_self] at h
      rcases List.mem_cons.mp h with h | h
      · cases h; exact .inl ⟨m.slotsLen, rfl, rfl⟩
      · exact .inr h
    · rw [owe_ne _ _ hj] at h; exact .inr h
  refine ⟨by simp [m.slotsLen], m.closLen, goodCache_le hl m.cache, ?_, fun k' hk => ?_, fun f k' c h1 h2 => denC_le hl (m.closures f k' c h1 h2), ?_, ?_, ?_, ?_, ?_, m.fields, m.empties⟩
  · intro k' r hm
    rcases List.mem_cons.mp hm with h | h
    · cases h
      show (K.slots ++ [k])[σ.slots.length]? = some k
      rw [← m.slotsLen]; simp
    · exact refKey_le hl (m.structs k' r h)
  · rcases List.mem_append.mp hk with hk | hk
    · obtain ⟨r, hr⟩ := m.known k' hk
      exact ⟨r, List.mem_cons_of_mem _ hr⟩
    · cases List.mem_singleton.mp hk
      exact ⟨_, List.mem_cons_self⟩
  · intro c s k' h1 h2
    rcases snoc_get h1 with h3 | ⟨rfl, rfl⟩
    · rcases snoc_get h2 with h2 | ⟨rfl, rfl⟩
      · exact m.slots c s k' h3 h2
      · have := (List.getElem?_eq_some_iff.mp h3).1
        rw [m.slotsLen] at this
        exact absurd this (Nat.lt_irrefl _)
    · exact ⟨fun f hf => by (simp at hf), fun hd => by (simp at hd)⟩
  · intro j c x h
    rcases mem h with ⟨rfl, rfl, -⟩ | h
    · simp
    · exact prefix_get ⟨_, rfl⟩ (m.owed j c x h)
  · intro c s h1 h2
    rcases snoc_get h1 with h1 | ⟨rfl, rfl⟩
    · obtain ⟨j, x, hj⟩ := m.ower c s h1 h2
      refine ⟨j, x, ?_⟩
      by_cases e : j = i
      · subst e; rw [owe_self]; exact List.mem_cons_of_mem _ hj
      · rw [owe_ne _ _ e]; exact hj
    · exact ⟨i, none, by rw [owe_self, m.slotsLen]; exact List.mem_cons_self⟩
  · intro j j' c x y h1 h2
    rcases mem h1 with ⟨rfl, -, rfl⟩ | h1
    · rcases mem h2 with ⟨-, -, rfl⟩ | h2
      · rfl
      · exact absurd (old h2) (Nat.lt_irrefl _)
    · rcases mem h2 with ⟨e, -, -⟩ | h2
      · rw [e] at h1
        exact absurd (old h1) (Nat.lt_irrefl _)
      · exact m.owedOne j j' c x y h1 h2
  · intro j
    by_cases e : j = i
    · subst e
      rw [owe_self, List.map_cons, List.nodup_cons]
      refine ⟨fun h => ?_, m.owedNodup j⟩
      obtain ⟨⟨c, x⟩, hm, rfl⟩ := List.mem_map.mp h
      have := old hm
      rw [m.slotsLen] at this
      exact absurd this (Nat.lt_irrefl _)
    · rw [owe_ne _ _ e]; exact m.owedNodup j

theorem GenInv.newClosure (m : GenInv W σ K ws) {k : TId × Bool} {c : Option (List CField)} (hc : DenC W K k c) :
    GenInv W { σ with closures := σ.closures ++ [c] } { K with closures := K.closures ++ [k] } ws := by
  have hl := le_closure K k
  refine ⟨m.slotsLen, by simp [m.closLen], goodCache_le hl m.cache, fun k' r hm => refKey_le hl (m.structs k' r hm), m.known, ?_, ?_, m.owed, m.ower, m.owedOne, m.owedNodup, m.fields, m.empties⟩
  · intro f k' c' h1 h2
    rcases snoc_get h2 with h2 | ⟨rfl, rfl⟩
    · rcases snoc_get h1 with h1 | ⟨rfl, rfl⟩
      · exact denC_le hl (m.closures f k' c' h1 h2)
      · have := (List.getElem?_eq_some_iff.mp h2).1
        rw [m.closLen] at this
        exact absurd this (Nat.lt_irrefl _)
    · rcases snoc_get h1 with h1 | ⟨-, rfl⟩
      · have := (List.getElem?_eq_some_iff.mp h1).1
        rw [m.closLen] at this
        exact absurd this (Nat.lt_irrefl _)
      · exact denC_le hl hc
  · intro c' s k' h1 h2
    exact ⟨fun f hf => prefix_get hl.closures ((m.slots c' s k' h1 h2).1 f hf), (m.slots c' s k' h1 h2).2⟩

theorem GenInv.setIns (m : GenInv W σ K ws) {i c f : Nat} {x : Option Nat} {w : Owed} {k : TId × Bool} (hw : ws i = (c, x) :: w) (hk : K.slots[c]? = some k)
    (hf : K.closures[f]? = some k) {s : Slot} (hs : σ.slots[c]? = some s) :
    GenInv W { σ with slots := σ.slots.set c { s with ins := some f } } K (owe ws i ((c, some f) :: w)) := by
  have hlt := (List.getElem?_eq_some_iff.mp hs).1
  have ho := m.owed i c x (by rw [hw]; exact List.mem_cons_self)
  rw [hs] at ho; cases ho
  have hnd := m.owedNodup i
  rw [hw, List.map_cons, List.nodup_cons] at hnd
  have mem : ∀ {j c' y}, (c', y) ∈ owe ws i ((c, some f) :: w) j → (c' = c ∧ y = some f ∧ j = i) ∨ ((c', y) ∈ ws j ∧ c' ≠ c) := by
    intro j c' y h
    by_cases hj : j = i
    · subst hj
      rw [owe_self] at h
      rcases List.mem_cons.mp h with h | h
      · cases h; exact .inl ⟨rfl, rfl, rfl⟩
      · refine .inr ⟨by rw [hw]; exact List.mem_cons_of_mem _ h, ?_⟩
        intro e
        rw [e] at h
        exact hnd.1 (List.mem_map.mpr ⟨_, h, rfl⟩)
    · rw [owe_ne _ _ hj] at h
      refine .inr ⟨h, ?_⟩
      rintro rfl
      exact hj (m.owedOne j i c' y x h (by rw [hw]; exact List.mem_cons_self))
  refine ⟨by simp [m.slotsLen], m.closLen, m.cache, m.structs, m.known, m.closures, ?_, ?_, ?_, ?_, ?_, m.fields, m.empties⟩
  · intro c' s k' h1 h2
    by_cases e : c' = c
    · subst e
      simp [hlt] at h1
      subst h1
      rw [hk] at h2; cases h2
      refine ⟨fun f' hf' => ?_, fun hd => by (simp at hd)⟩
      cases hf'
      exact hf
    · simp only at h1
      rw [List.getElem?_set_ne (Ne.symm e)] at h1
      exact m.slots c' s k' h1 h2
  · intro j c' y h
    rcases mem h with ⟨rfl, rfl, -⟩ | ⟨h, hne⟩
    · simp [hlt]
    · simp only
      rw [List.getElem?_set_ne (Ne.symm hne)]
      exact m.owed j c' y h
  · intro c' s h1 h2
    by_cases e : c' = c
    · subst e
      exact ⟨i, some f, by rw [owe_self]; exact List.mem_cons_self⟩
    · simp only at h1
      rw [List.getElem?_set_ne (Ne.symm e)] at h1
      obtain ⟨j, y, hj⟩ := m.ower c' s h1 h2
      refine ⟨j, y, ?_⟩
      by_cases e' : j = i
      · subst e'
        rw [owe_self]
        rw [hw] at hj
        rcases List.mem_cons.mp hj with h | h
        · cases h; exact absurd rfl e
        · exact List.mem_cons_of_mem _ h
      · rw [owe_ne _ _ e']; exact hj
  · intro j j' c' y y' h1 h2
    rcases mem h1 with ⟨rfl, -, rfl⟩ | ⟨h1, hne⟩
    · rcases mem h2 with ⟨-, -, rfl⟩ | ⟨h2, hne⟩
      · rfl
      · exact absurd rfl hne
    · rcases mem h2 with ⟨rfl, -, rfl⟩ | ⟨h2, -⟩
      · exact absurd rfl hne
      · exact m.owedOne j j' c' y y' h1 h2
  · intro j
    by_cases e : j = i
    · subst e
      rw [owe_self, List.map_cons, List.nodup_cons]
      exact hnd
    · rw [owe_ne _ _ e]; exact m.owedNodup j

theorem GenInv.done (m : GenInv W σ K ws) {i c f : Nat} {w : Owed} (hw : ws i = (c, some f) :: w) {s : Slot} (hs : σ.slots[c]? = some s) :
    GenInv W { σ with slots := σ.slots.set c { s with done := true } } K (owe ws i w) := by
  have hlt := (List.getElem?_eq_some_iff.mp hs).1
  have ho := m.owed i c (some f) (by rw [hw]; exact List.mem_cons_self)
  have hs' := hs
  rw [hs] at ho; cases ho
  have hnd := m.owedNodup i
  rw [hw, List.map_cons, List.nodup_cons] at hnd
  have mem : ∀ {j c' y}, (c', y) ∈ owe ws i w j → (c', y) ∈ ws j ∧ c' ≠ c := by
    intro j c' y h
    by_cases hj : j = i
    · subst hj
      rw [owe_self] at h
      refine ⟨by rw [hw]; exact List.mem_cons_of_mem _ h, ?_⟩
      rintro rfl
      exact hnd.1 (List.mem_map.mpr ⟨_, h, rfl⟩)
    · rw [owe_ne _ _ hj] at h
      refine ⟨h, ?_⟩
      rintro rfl
      exact hj (m.owedOne j i c' y _ h (by rw [hw]; exact List.mem_cons_self))
  refine ⟨by simp [m.slotsLen], m.closLen, m.cache, m.structs, m.known, m.closures, ?_, ?_, ?_, ?_, ?_, m.fields, m.empties⟩
  · intro c' s k' h1 h2
    by_cases e : c' = c
    · subst e
      simp [hlt] at h1
      subst h1
      exact ⟨(m.slots c' _ k' hs' h2).1, fun _ => by simp⟩
    · simp only at h1
      rw [List.getElem?_set_ne (Ne.symm e)] at h1
      exact m.slots c' s k' h1 h2
  · intro j c' y h
    obtain ⟨h, hne⟩ := mem h
    simp only
    rw [List.getElem?_set_ne (Ne.symm hne)]
    exact m.owed j c' y h
  · intro c' s h1 h2
    by_cases e : c' = c
    · subst e
      simp [hlt] at h1
      subst h1
      cases h2
    · simp only at h1
      rw [List.getElem?_set_ne (Ne.symm e)] at h1
      obtain ⟨j, y, hj⟩ := m.ower c' s h1 h2
      refine ⟨j, y, ?_⟩
      by_cases e' : j = i
      · subst e'
        rw [owe_self]
        rw [hw] at hj
        rcases List.mem_cons.mp hj with h | h
        · cases h; exact absurd rfl e
        · exact h
      · rw [owe_ne _ _ e']; exact hj
  · intro j j' c' y y' h1 h2
    exact m.owedOne j j' c' y y' (mem h1).1 (mem h2).1
  · intro j
    by_cases e : j = i
    · subst e
      rw [owe_self]
      exact hnd.2
    · rw [owe_ne _ _ e]; exact m.owedNodup j

theorem give_buf {h : Frag} {id : Nat} {s : Sl} {arr : Nat → Option Bytes} {c : Bytes} (hc : arr s.arr = some c) :
    h.give id (.buf s) arr = (h.setObj id (.buf s)).setArr s.arr c := by
  simp only [Frag.give, Frag.setObj, Frag.setArr, PObj.arrs, List.mem_singleton, Frag.mk.injEq, and_true]
  funext x
  split
  · next e => rw [e, hc]
  · rfl

theorem give_elems {h : Frag} {id : Nat} {l : List (Sub × Sub)} {arr : Nat → Option Bytes} : h.give id (.elems l) arr = h.setObj id (.elems l) := by
  simp [Frag.give, Frag.setObj, PObj.arrs]

theorem give_iter {h : Frag} {id : Nat} {l : List (Addr × Addr)} {arr : Nat → Option Bytes} : h.give id (.iter l) arr = h.setObj id (.iter l) := by
  simp [Frag.give, Frag.setObj, PObj.arrs]

theorem take_buf {h : Frag} {id : Nat} {s : Sl} : h.take id (.buf s) = (h.delObj id).delArr s.arr := by
  simp [Frag.take, Frag.delObj, Frag.delArr, PObj.arrs]

theorem take_elems {h : Frag} {id : Nat} {l : List (Sub × Sub)} : h.take id (.elems l) = h.delObj id := by
  simp [Frag.take, Frag.delObj, PObj.arrs]

theorem take_iter {h : Frag} {id : Nat} {l : List (Addr × Addr)} : h.take id (.iter l) = h.delObj id := by
  simp [Frag.take, Frag.delObj, PObj.arrs]

theorem held_get {held : List Nat} {h h' : Frag} {id : Nat} {v : PObj} (hk : HeldOk held h) (hn : h.obj id = none) (ho : h'.obj = (h.setObj id v).obj) : HeldOk (id :: held) h' := by
  refine ⟨List.nodup_cons.mpr ⟨fun hm => (hk.2 id).mp hm hn, hk.1⟩, fun x => ?_⟩
  rw [ho]
  by_cases e : x = id
  · subst e; simp [Frag.setObj]
  · simp [Frag.setObj, e, hk.2 x]

theorem held_put {held : List Nat} {h h' : Frag} {id : Nat} (hk : HeldOk held h) (ho : h'.obj = (h.delObj id).obj) : HeldOk (held.erase id) h' := by
  refine ⟨hk.1.erase id, fun x => ?_⟩
  rw [ho, hk.1.mem_erase_iff]
  by_cases e : x = id
  · subst e; simp [Frag.delObj]
  · simp [Frag.delObj, e, hk.2 x]


theorem KeepOk.none {h : Frag} (mk : KeepOk h) {a : Nat} (ha : h.arr a = none) : h.keep a = [] := by
  have := mk a
  rw [ha] at this
  exact List.prefix_nil.mp this

theorem KeepOk.set {h : Frag} (mk : KeepOk h) {a : Nat} {c : Bytes} (hc : h.keep a <+: c) : KeepOk (h.setArr a c) := by
  intro x
  by_cases e : x = a
  · subst e; simpa [Frag.setArr] using hc
  · simpa [Frag.setArr, e] using mk x

theorem KeepOk.new {h : Frag} (mk : KeepOk h) {a : Nat} {c : Bytes} (ha : h.arr a = .none) : KeepOk (h.setArr a c) :=
  mk.set (by rw [mk.none ha]; exact List.nil_prefix)

theorem KeepOk.del {h : Frag} (mk : KeepOk h) {a : Nat} (hc : h.keep a = []) : KeepOk (h.delArr a) := by
  intro x
  by_cases e : x = a
  · subst e; simp [Frag.delArr, hc]
  · simpa [Frag.delArr, e] using mk x

/-- Writing beyond what has to stay. -/
theorem keep_write {k c c' : Bytes} {n : Nat} (hk : k <+: c) (hn : k.length ≤ n) (e : c'.take n = c.take n) : k <+: c' := by
  have h1 : k <+: c.take n := by
    obtain ⟨t, rfl⟩ := hk
    rw [List.take_append, List.take_of_length_le hn]
    exact ⟨_, rfl⟩
  rw [← e] at h1
  exact h1.trans (List.take_prefix _ _)

theorem keep_append {k c c' b : Bytes} {n : Nat} (hk : k <+: c) (hn : k.length ≤ n) (hb : c.take n <+: b) (e : c'.take b.length = b) : k <+: c' := by
  have h1 : k <+: c.take n := by
    obtain ⟨t, rfl⟩ := hk
    rw [List.take_append, List.take_of_length_le hn]
    exact ⟨_, rfl⟩
  have h2 : k <+: b := h1.trans hb
  rw [← e] at h2
  exact h2.trans (List.take_prefix _ _)

/-- What is known after an operation of the call `i`. -/
structure Stepped (W : World) (i : Nat) (hs : Parts) (ws : Nat → Owed) (K : Known) (o : Op) (Q : PostC o.Res) (σ' : Shared) (x : o.Res)
    (K' : Known) (hs' : Parts) (ws' : Nat → Owed) : Prop where
  le : K.Le K'
  mem : MemInv σ' hs'
  gen : GenInv W σ' K' ws'
  others : ∀ j, j ≠ i → hs' (some j) = hs (some j) ∧ ws' j = ws j
  post : Q K' (hs' (some i)) (ws' i) x
  held : ∀ held, HeldOk held (hs (some i)) → HeldOk (heldAfter o x held) (hs' (some i))
  kept : (hs' (some i)).keep = (hs (some i)).keep ∧ KeepOk (hs' (some i))

theorem op_step {i : Nat} {o : Op} {Q : PostC o.Res} {x : o.Res} (m : MemInv σ hs) (m' : GenInv W σ K ws) (mk : KeepOk (hs (some i))) (hg : OpGood W K (hs (some i)) (ws i) o Q) (hst : o.step σ σ' x) :
    ∃ K' hs' ws', Stepped W i hs ws K o Q σ' x K' hs' ws' := by
  have hr := Known.Le.refl K
  have oth : ∀ {f : Frag} {w : Owed}, ∀ j, j ≠ i → hs.upd (some i) f (some j) = hs (some j) ∧ owe ws i w j = ws j :=
    fun j hj => ⟨upd_ne _ _ (by simp [hj]), owe_ne _ _ hj⟩
  have oth1 : ∀ {f : Frag}, ∀ j, j ≠ i → hs.upd (some i) f (some j) = hs (some j) ∧ ws j = ws j :=
    fun j hj => ⟨upd_ne _ _ (by simp [hj]), rfl⟩
  cases o with
  | loadInstr t =>
    obtain ⟨rfl, rfl⟩ := hst
    refine ⟨K, hs, ws, hr, m, m', fun _ _ => ⟨rfl, rfl⟩, ?_, fun _ h => h, ⟨rfl, mk⟩⟩
    cases ha : assoc t σ'.cache with
    | none => exact hg.1
    | some c =>
      obtain ⟨i, hi, hd⟩ := m'.cache t c (assoc_mem ha)
      exact hg.2 c i hi hd
  | loadCache =>
    obtain ⟨rfl, rfl⟩ := hst
    exact ⟨K, hs, ws, hr, m, m', fun _ _ => ⟨rfl, rfl⟩, hg _ m'.cache, fun _ h => h, ⟨rfl, mk⟩⟩
  | storeCache l =>
    cases hst
    exact ⟨K, hs, ws, hr, m.congr rfl rfl rfl, ⟨m'.slotsLen, m'.closLen, hg.1, m'.structs, m'.known, m'.closures, m'.slots, m'.owed, m'.ower, m'.owedOne, m'.owedNodup, m'.fields, m'.empties⟩,
      fun _ _ => ⟨rfl, rfl⟩, hg.2, fun _ h => h, ⟨rfl, mk⟩⟩
  | loadStruct k =>
    obtain ⟨rfl, rfl⟩ := hst
    refine ⟨K, hs, ws, hr, m, m', fun _ _ => ⟨rfl, rfl⟩, ?_, fun _ h => h, ⟨rfl, mk⟩⟩
    cases ha : assoc k σ'.structs with
    | none => exact hg.1
    | some r => exact hg.2 r (m'.structs k r (assoc_mem ha))
  | loadOrStore k =>
    simp only [Op.step] at hst
    cases ha : assoc k σ.structs with
    | some r =>
      rw [ha] at hst
      obtain ⟨rfl, rfl⟩ := hst
      exact ⟨K, hs, ws, hr, m, m', fun _ _ => ⟨rfl, rfl⟩, hg.1 r (m'.structs k r (assoc_mem ha)), fun _ h => h, ⟨rfl, mk⟩⟩
    | none =>
      rw [ha] at hst
      obtain ⟨rfl, rfl⟩ := hst
      refine ⟨_, hs, _, le_slot K k, m.congr rfl rfl rfl, m'.newSlot i k, fun j hj => ⟨rfl, owe_ne _ _ hj⟩, ?_, fun _ h => h, ⟨rfl, mk⟩⟩
      rw [owe_self]
      have := hg.2 fun hk => by
        obtain ⟨r, hr⟩ := m'.known k hk
        exact assoc_not_mem ha hr
      rw [m'.slotsLen] at this ⊢
      exact this
  | newClosure c =>
    obtain ⟨rfl, rfl⟩ := hst
    obtain ⟨k, hd, hq⟩ := hg
    refine ⟨_, hs, ws, le_closure K k, m.congr rfl rfl rfl, m'.newClosure hd, fun _ _ => ⟨rfl, rfl⟩, ?_, fun _ h => h, ⟨rfl, mk⟩⟩
    rw [← m'.closLen]; exact hq
  | setIns c f =>
    obtain ⟨s, hs1, rfl⟩ := hst
    obtain ⟨x, w', k, hw, hk, hf, hq⟩ := hg
    refine ⟨K, hs, _, hr, m.congr rfl rfl rfl, m'.setIns hw hk hf hs1, fun j hj => ⟨rfl, owe_ne _ _ hj⟩, ?_, fun _ h => h, ⟨rfl, mk⟩⟩
    rw [owe_self]; exact hq
  | done c =>
    obtain ⟨s, hs1, rfl⟩ := hst
    obtain ⟨f, w', hw, hq⟩ := hg
    refine ⟨K, hs, _, hr, m.congr rfl rfl rfl, m'.done hw hs1, fun j hj => ⟨rfl, owe_ne _ _ hj⟩, ?_, fun _ h => h, ⟨rfl, mk⟩⟩
    rw [owe_self]; exact hq
  | storeStruct k f =>
    cases hst
    refine ⟨K, hs, ws, hr, m.congr rfl rfl rfl, ⟨m'.slotsLen, m'.closLen, m'.cache, fun k' r hm => ?_, fun k' hk => let ⟨r, h⟩ := m'.known k' hk; ⟨r, List.mem_cons_of_mem _ h⟩, m'.closures, m'.slots, m'.owed, m'.ower, m'.owedOne, m'.owedNodup, m'.fields, m'.empties⟩,
      fun _ _ => ⟨rfl, rfl⟩, hg.2, fun _ h => h, ⟨rfl, mk⟩⟩
    rcases List.mem_cons.mp hm with h | h
    · cases h; exact hg.1
    · exact m'.structs k' r h
  | wait c =>
    obtain ⟨rfl, hs1⟩ := hst
    obtain ⟨-, k, hk, hq⟩ := hg
    exact ⟨K, hs, ws, hr, m, m', fun _ _ => ⟨rfl, rfl⟩, hq _ ((m'.slots c _ k hs1 hk).1 _ rfl), fun _ h => h, ⟨rfl, mk⟩⟩
  | captured f =>
    obtain ⟨rfl, hs1⟩ := hst
    obtain ⟨k, hk, hq⟩ := hg
    exact ⟨K, hs, ws, hr, m, m', fun _ _ => ⟨rfl, rfl⟩, hq _ (m'.closures f k _ hk hs1), fun _ h => h, ⟨rfl, mk⟩⟩
  | loadFields t =>
    obtain ⟨rfl, rfl⟩ := hst
    refine ⟨K, hs, ws, hr, m, m', fun _ _ => ⟨rfl, rfl⟩, ?_, fun _ h => h, ⟨rfl, mk⟩⟩
    cases ha : assoc t σ'.fields with
    | none => exact hg.1
    | some r => exact hg.2 r (m'.fields t r (assoc_mem ha))
  | addFields t l =>
    simp only [Op.step] at hst
    cases ha : assoc t σ.fields with
    | some r =>
      rw [ha] at hst
      obtain ⟨rfl, hx⟩ := hst
      have := m'.fields t _ (assoc_mem ha)
      rw [hg.1] at this
      have hx' : x = l := hx.trans (Option.some.inj this).symm
      clear hx
      subst x
      exact ⟨K, hs, ws, hr, m, m', fun _ _ => ⟨rfl, rfl⟩, hg.2, fun _ h => h, ⟨rfl, mk⟩⟩
    | none =>
      rw [ha] at hst
      obtain ⟨rfl, hx⟩ := hst
      subst x
      refine ⟨K, hs, ws, hr, m.congr rfl rfl rfl, ⟨m'.slotsLen, m'.closLen, m'.cache, m'.structs, m'.known, m'.closures, m'.slots, m'.owed, m'.ower, m'.owedOne, m'.owedNodup, fun t' l' hm => ?_, m'.empties⟩,
        fun _ _ => ⟨rfl, rfl⟩, hg.2, fun _ h => h, ⟨rfl, mk⟩⟩
      rcases List.mem_cons.mp hm with h | h
      · cases h; exact hg.1
      · exact m'.fields t' l' h
  | loadEmpty t =>
    obtain ⟨rfl, rfl⟩ := hst
    refine ⟨K, hs, ws, hr, m, m', fun _ _ => ⟨rfl, rfl⟩, ?_, fun _ h => h, ⟨rfl, mk⟩⟩
    cases ha : assoc t σ'.empties with
    | none => exact hg.1
    | some r => rw [m'.empties t r (assoc_mem ha)]; exact hg.2
  | addEmpty t f =>
    simp only [Op.step] at hst
    cases ha : assoc t σ.empties with
    | some r =>
      rw [ha] at hst
      obtain ⟨rfl, hx⟩ := hst
      have := m'.empties t _ (assoc_mem ha)
      rw [← hg.1] at this
      have hx' : x = f := hx.trans this
      clear hx
      subst x
      exact ⟨K, hs, ws, hr, m, m', fun _ _ => ⟨rfl, rfl⟩, hg.2, fun _ h => h, ⟨rfl, mk⟩⟩
    | none =>
      rw [ha] at hst
      obtain ⟨rfl, hx⟩ := hst
      subst x
      refine ⟨K, hs, ws, hr, m.congr rfl rfl rfl, ⟨m'.slotsLen, m'.closLen, m'.cache, m'.structs, m'.known, m'.closures, m'.slots, m'.owed, m'.ower, m'.owedOne, m'.owedNodup, m'.fields, fun t' l' hm => ?_⟩,
        fun _ _ => ⟨rfl, rfl⟩, hg.2, fun _ h => h, ⟨rfl, mk⟩⟩
      rcases List.mem_cons.mp hm with h | h
      · cases h; exact hg.1
      · exact m'.empties t' l' h
  | read s =>
    obtain ⟨rfl, c, h1, h2, rfl⟩ := hst
    obtain ⟨-, c', h1', -, hq⟩ := hg
    have := m.arrIn _ _ _ h1'
    rw [h1] at this; cases this
    exact ⟨K, hs, ws, hr, m, m', fun _ _ => ⟨rfl, rfl⟩, hq, fun _ h => h, ⟨rfl, mk⟩⟩
  | scratch s =>
    obtain ⟨c, c', h1, h2, a1, a2, rfl, rfl⟩ := hst
    obtain ⟨-, hk1, c0, h1', -, hq⟩ := hg
    have := m.arrIn _ _ _ h1'
    rw [h1] at this; cases this
    have hkc : (hs (some i)).keep s.arr <+: c := by have := mk s.arr; rw [h1'] at this; exact this
    refine ⟨K, _, ws, hr, m.setArr (c := c') (by rw [h1']; simp), m'.congr rfl rfl rfl rfl rfl rfl, oth1, ?_, fun held h => ?_, ?_⟩
    · rw [upd_self]; exact hq c' a1 a2
    · rw [upd_self]; exact h
    · rw [upd_self]; exact ⟨rfl, mk.set (keep_write hkc hk1 a2)⟩
  | back n c l out =>
    cases hst
    obtain ⟨-, -, h', hsub, ho, hk', hq⟩ := hg
    refine ⟨K, _, ws, hr, m.sub hsub, m', oth1, ?_, fun held h => ?_, ?_⟩
    · rw [upd_self]; exact hq
    · rw [upd_self]
      rcases ho with ⟨rfl, ho⟩ | ⟨hne, ho⟩
      · exact ho
      · have e : heldAfter (.back n c l out) x held = held := by cases out <;> first | rfl | exact absurd rfl hne
        rw [e]
        exact ⟨h.1, fun id => by rw [ho]; exact h.2 id⟩
    · rw [upd_self]; exact ⟨hsub.keep, hk'⟩
  | write s b =>
    obtain ⟨c, h1, hst⟩ := hst
    obtain ⟨c0, h1', ⟨hk1, hk2, hk3⟩, hq1, hq2⟩ := hg
    have := m.arrIn _ _ _ h1'
    rw [h1] at this; cases this
    have hkc : (hs (some i)).keep s.arr <+: c := by have := mk s.arr; rw [h1'] at this; exact this
    rcases hst with ⟨c', a1, a2, a3, rfl, rfl⟩ | ⟨c1, c', a1, a2, a3, a4, rfl, rfl⟩
    · refine ⟨K, _, ws, hr, m.setArr (c := c') (by rw [h1']; simp), m'.congr rfl rfl rfl rfl rfl rfl, oth1, ?_, fun held h => ?_, ?_⟩
      · rw [upd_self]; exact hq1 c' a1 a2 a3
      · rw [upd_self]; exact h
      · rw [upd_self]; exact ⟨rfl, mk.set (keep_append hkc hk1 hk3 a3)⟩
    · have hm := (m.setArr (c := c1) (i := i) (a := s.arr) (by rw [h1']; simp)).newArr i c'
      simp only [List.length_set] at hm
      rw [upd_self] at hm
      refine ⟨K, _, ws, hr, hm, m'.congr rfl rfl rfl rfl rfl rfl, fun j hj => ⟨?_, rfl⟩, ?_, fun held h => ?_, ?_⟩
      · rw [upd_ne _ _ (by simp [hj]), upd_ne _ _ (by simp [hj])]
      · rw [upd_self]; exact hq2 _ c1 c' (m.arr_fresh _) (mk.none (m.arr_fresh _)) a1 a2 a3 a4
      · rw [upd_self]; exact h
      · have hne : σ.arrs.length ≠ s.arr := by
          intro e; have := m.arr_fresh (some i); rw [e, h1'] at this; cases this
        rw [upd_self]
        exact ⟨rfl, (mk.set (keep_write hkc hk1 a2)).new (by simp [Frag.setArr, hne, m.arr_fresh])⟩
  | alloc b =>
    obtain ⟨junk, rfl, rfl⟩ := hst
    refine ⟨K, _, ws, hr, m.newArr i (b ++ junk), m'.congr rfl rfl rfl rfl rfl rfl, oth1, ?_, fun held h => ?_, ?_⟩
    · rw [upd_self]; exact hg _ junk (m.arr_fresh _) (mk.none (m.arr_fresh _))
    · rw [upd_self]; exact h
    · rw [upd_self]; exact ⟨rfl, mk.new (m.arr_fresh _)⟩
  | load id =>
    obtain ⟨rfl, h1⟩ := hst
    obtain ⟨v, h2, hq⟩ := hg
    have := m.objIn _ _ _ h2
    rw [h1] at this; cases this
    exact ⟨K, hs, ws, hr, m, m', fun _ _ => ⟨rfl, rfl⟩, hq, fun _ h => h, ⟨rfl, mk⟩⟩
  | store id v =>
    obtain ⟨h1, rfl⟩ := hst
    refine ⟨K, _, ws, hr, m.setObj hg.1, m'.congr rfl rfl rfl rfl rfl rfl, oth1, ?_, fun held h => ?_, ?_⟩
    · rw [upd_self]; exact hg.2
    · rw [upd_self]
      refine ⟨h.1, fun y => ?_⟩
      by_cases e : y = id
      · subst e; simp [Frag.setObj, (h.2 y).mpr hg.1, heldAfter]
      · simp [Frag.setObj, e, heldAfter, h.2 y]
    · rw [upd_self]; exact ⟨rfl, mk⟩
  | get P =>
    change Nat at x
    rename Nat => id
    rcases hst with ⟨hx, rfl⟩ | ⟨v, arrs, hf, rfl, hx⟩
    · obtain ⟨v, hv, hp⟩ := m.pooled P id hx
      have hn : (hs (some i)).obj id = none := m.obj_other (by rw [hv]; simp) (by simp)
      refine ⟨K, _, ws, hr, m.get (i := i) hx hv, m'.congr rfl rfl rfl rfl rfl rfl, fun j hj => ⟨move_ne _ _ _ (by simp) (by simp [hj]), rfl⟩, ?_, fun held h => ?_, ?_⟩
      · rw [move_to]
        cases P with
        | buf =>
          obtain ⟨s, c, rfl, hc⟩ := hp
          rw [give_buf hc]
          have ha := m.arr_other (o := none) (o' := some i) (a := s.arr) (by rw [hc]; simp) (by simp)
          exact hg id s c hn ha (mk.none ha)
        | elems =>
          cases hp
          rw [give_elems]
          exact hg id hn
        | iter =>
          obtain ⟨l, rfl⟩ := hp
          rw [give_iter]
          exact hg id l hn
      · rw [move_to]
        exact held_get (v := v) h hn rfl
      · rw [move_to]
        cases P with
        | buf =>
          obtain ⟨s, c, rfl, hc⟩ := hp
          rw [give_buf hc]
          exact ⟨rfl, KeepOk.new (h := (hs (some i)).setObj id (.buf s)) mk (m.arr_other (o := none) (by rw [hc]; simp) (by simp))⟩
        | elems => cases hp; rw [give_elems]; exact ⟨rfl, mk⟩
        | iter => obtain ⟨l, rfl⟩ := hp; rw [give_iter]; exact ⟨rfl, mk⟩
    · have hn := m.obj_fresh (some i)
      cases hx
      cases hf with
      | buf junk =>
        have hm := (m.newObj i (.buf ⟨σ.arrs.length, 0⟩)).newArr i junk
        rw [upd_self] at hm
        refine ⟨K, _, ws, hr, hm, m'.congr rfl rfl rfl rfl rfl rfl, fun j hj => ⟨?_, rfl⟩, ?_, fun held h => ?_, ?_⟩
        · rw [upd_ne _ _ (by simp [hj]), upd_ne _ _ (by simp [hj])]
        · rw [upd_self]; exact hg _ ⟨σ.arrs.length, 0⟩ junk hn (m.arr_fresh _) (mk.none (m.arr_fresh _))
        · rw [upd_self]; exact held_get (v := .buf ⟨σ.arrs.length, 0⟩) h hn rfl
        · rw [upd_self]; exact ⟨rfl, KeepOk.new (h := (hs (some i)).setObj _ _) mk (m.arr_fresh _)⟩
      | elems =>
        refine ⟨K, _, ws, hr, m.newObj i (.elems []), m'.congr rfl rfl rfl rfl rfl rfl, oth1, ?_, fun held h => ?_, ?_⟩
        · rw [upd_self]; exact hg _ hn
        · rw [upd_self]; exact held_get (v := .elems []) h hn rfl
        · rw [upd_self]; exact ⟨rfl, mk⟩
      | iter =>
        refine ⟨K, _, ws, hr, m.newObj i (.iter []), m'.congr rfl rfl rfl rfl rfl rfl, oth1, ?_, fun held h => ?_, ?_⟩
        · rw [upd_self]; exact hg _ [] hn
        · rw [upd_self]; exact held_get (v := .iter []) h hn rfl
        · rw [upd_self]; exact ⟨rfl, mk⟩
  | put P id =>
    cases hst
    have main : ∀ {v : PObj}, (hs (some i)).obj id = some v → InPool P v (hs (some i)).arr → KeepOk ((hs (some i)).take id v) → Q K ((hs (some i)).take id v) (ws i) () →
        ∃ K' hs' ws', Stepped W i hs ws K (.put P id) Q { σ with pool := fun Q => if Q = P then id :: σ.pool P else σ.pool Q } () K' hs' ws' := by
      intro v hv hp hkp hq
      refine ⟨K, _, ws, hr, m.put hv hp, m'.congr rfl rfl rfl rfl rfl rfl, fun j hj => ⟨move_ne _ _ _ (by simp [hj]) (by simp), rfl⟩, ?_, fun held h => ?_, ?_⟩
      · rw [move_from hs (by simp)]; exact hq
      · rw [move_from hs (by simp)]; exact held_put h rfl
      · rw [move_from hs (by simp)]; exact ⟨rfl, hkp⟩
    cases P with
    | buf =>
      obtain ⟨s, h1, h2, hk, hq⟩ := hg
      obtain ⟨c, hc⟩ := Option.ne_none_iff_exists'.mp h2
      exact main h1 ⟨s, c, rfl, hc⟩ (by rw [take_buf]; exact KeepOk.del (h := (hs (some i)).delObj id) mk hk) (by rw [take_buf]; exact hq)
    | elems => exact main hg.1 rfl (by rw [take_elems]; exact mk) (by rw [take_elems]; exact hg.2)
    | iter =>
      obtain ⟨l, h1, hq⟩ := hg
      exact main h1 ⟨l, rfl⟩ (by rw [take_iter]; exact mk) (by rw [take_iter]; exact hq)

end Jettison.Proofs
