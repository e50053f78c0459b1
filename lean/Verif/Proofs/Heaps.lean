import Verif.Proofs.CallOk

/-!
# Who owns what: arrays and pooled objects
-/

namespace Jettison.Proofs
open Jettison Jettison.Model

/-- Parts of the memory by owner: `none` is the pools. -/
abbrev Parts := Option Nat → Frag

/-- Another part for one owner. -/
def Parts.upd (hs : Parts) (o : Option Nat) (f : Frag) : Parts := fun x => if x = o then f else hs x

theorem upd_self (hs : Parts) (o : Option Nat) (f : Frag) : hs.upd o f o = f := by simp [Parts.upd]
theorem upd_ne (hs : Parts) {o x : Option Nat} (f : Frag) (h : x ≠ o) : hs.upd o f x = hs x := by simp [Parts.upd, h]

/-- The parts are parts of the memory, no two share anything, and the pools own what is in them. -/
structure MemInv (σ : Shared) (hs : Parts) : Prop where
  arrIn : ∀ o a c, (hs o).arr a = some c → σ.arrs[a]? = some c
  objIn : ∀ o id v, (hs o).obj id = some v → σ.objs[id]? = some v
  arrOne : ∀ o o' a, (hs o).arr a ≠ none → (hs o').arr a ≠ none → o = o'
  objOne : ∀ o o' a, (hs o).obj a ≠ none → (hs o').obj a ≠ none → o = o'
  pooled : ∀ P id, id ∈ σ.pool P → ∃ v, (hs none).obj id = some v ∧ InPool P v (hs none).arr
  nodup : ∀ P, (σ.pool P).Nodup
  bufOne : ∀ id id' s s', id ∈ σ.pool .buf → id' ∈ σ.pool .buf → (hs none).obj id = some (.buf s) → (hs none).obj id' = some (.buf s') → s.arr = s'.arr → id = id'

variable {σ : Shared} {hs : Parts}

theorem MemInv.arr_fresh (m : MemInv σ hs) (o : Option Nat) : (hs o).arr σ.arrs.length = none := by
  cases h : (hs o).arr σ.arrs.length with
  | none => rfl
  | some c =>
    have := m.arrIn o _ c h
    rw [List.getElem?_eq_none (Nat.le_refl _)] at this
    cases this

theorem MemInv.obj_fresh (m : MemInv σ hs) (o : Option Nat) : (hs o).obj σ.objs.length = none := by
  cases h : (hs o).obj σ.objs.length with
  | none => rfl
  | some c =>
    have := m.objIn o _ c h
    rw [List.getElem?_eq_none (Nat.le_refl _)] at this
    cases this

theorem MemInv.arr_other (m : MemInv σ hs) {o o' : Option Nat} {a : Nat} (h : (hs o).arr a ≠ none) (hne : o' ≠ o) : (hs o').arr a = none :=
  Classical.byContradiction fun hn => hne (m.arrOne o' o a hn h)

theorem MemInv.obj_other (m : MemInv σ hs) {o o' : Option Nat} {a : Nat} (h : (hs o).obj a ≠ none) (hne : o' ≠ o) : (hs o').obj a = none :=
  Classical.byContradiction fun hn => hne (m.objOne o' o a hn h)

/-- The memory is the same. -/
theorem MemInv.congr {σ' : Shared} (m : MemInv σ hs) (h1 : σ'.arrs = σ.arrs) (h2 : σ'.objs = σ.objs) (h3 : σ'.pool = σ.pool) : MemInv σ' hs :=
  ⟨by rw [h1]; exact m.arrIn, by rw [h2]; exact m.objIn, m.arrOne, m.objOne, by rw [h3]; exact m.pooled, by rw [h3]; exact m.nodup, by rw [h3]; exact m.bufOne⟩

/-- Writing to an array of a call. -/
theorem MemInv.setArr (m : MemInv σ hs) {i a : Nat} {c : Bytes} (h : (hs (some i)).arr a ≠ none) :
    MemInv { σ with arrs := σ.arrs.set a c } (hs.upd (some i) ((hs (some i)).setArr a c)) := by
  obtain ⟨c0, hc0⟩ := Option.ne_none_iff_exists'.mp h
  have hlt : a < σ.arrs.length := (List.getElem?_eq_some_iff.mp (m.arrIn _ _ _ hc0)).1
  have arr' : ∀ o x, (hs.upd (some i) ((hs (some i)).setArr a c) o).arr x ≠ none → (hs o).arr x ≠ none := by
    intro o x hx
    by_cases ho : o = some i
    · subst ho
      rw [upd_self] at hx
      by_cases e : x = a
      · subst e; exact h
      · simpa [Frag.setArr, e] using hx
    · rw [upd_ne _ _ ho] at hx; exact hx
  have obj' : ∀ o, (hs.upd (some i) ((hs (some i)).setArr a c) o).obj = (hs o).obj := by
    intro o
    by_cases ho : o = some i
    · subst ho; rw [upd_self]; rfl
    · rw [upd_ne _ _ ho]
  have none' : hs.upd (some i) ((hs (some i)).setArr a c) none = hs none := upd_ne _ _ (by simp)
  refine ⟨fun o x y hx => ?_, fun o id v hv => ?_, fun o o' x h1 h2 => m.arrOne o o' x (arr' o x h1) (arr' o' x h2),
    fun o o' x h1 h2 => ?_, by rw [none']; exact m.pooled, m.nodup, by rw [none']; exact m.bufOne⟩
  · by_cases e : x = a
    · subst e
      have : o = some i := m.arrOne o (some i) x (arr' o x (by rw [hx]; simp)) h
      subst this
      rw [upd_self] at hx
      simp [Frag.setArr] at hx
      subst hx
      simp [hlt]
    · simp only
      rw [List.getElem?_set_ne (Ne.symm e)]
      by_cases ho : o = some i
      · subst ho
        rw [upd_self] at hx
        exact m.arrIn _ _ _ (by simpa [Frag.setArr, e] using hx)
      · rw [upd_ne _ _ ho] at hx; exact m.arrIn _ _ _ hx
  · rw [obj'] at hv; exact m.objIn o id v hv
  · rw [obj'] at h1 h2; exact m.objOne o o' x h1 h2

/-- A new array. -/
theorem MemInv.newArr (m : MemInv σ hs) (i : Nat) (c : Bytes) :
    MemInv { σ with arrs := σ.arrs ++ [c] } (hs.upd (some i) ((hs (some i)).setArr σ.arrs.length c)) := by
  have arr' : ∀ o x, (hs.upd (some i) ((hs (some i)).setArr σ.arrs.length c) o).arr x ≠ none →
      (o = some i ∧ x = σ.arrs.length) ∨ ((hs o).arr x ≠ none ∧ x ≠ σ.arrs.length) := by
    intro o x hx
    by_cases ho : o = some i
    · subst ho
      rw [upd_self] at hx
      by_cases e : x = σ.arrs.length
      · exact .inl ⟨rfl, e⟩
      · exact .inr ⟨by simpa [Frag.setArr, e] using hx, e⟩
    · rw [upd_ne _ _ ho] at hx
      refine .inr ⟨hx, ?_⟩
      rintro rfl
      exact hx (m.arr_fresh o)
  have obj' : ∀ o, (hs.upd (some i) ((hs (some i)).setArr σ.arrs.length c) o).obj = (hs o).obj := by
    intro o
    by_cases ho : o = some i
    · subst ho; rw [upd_self]; rfl
    · rw [upd_ne _ _ ho]
  have none' : hs.upd (some i) ((hs (some i)).setArr σ.arrs.length c) none = hs none := upd_ne _ _ (by simp)
  refine ⟨fun o x y hx => ?_, fun o id v hv => ?_, fun o o' x h1 h2 => ?_, fun o o' x h1 h2 => ?_,
    by rw [none']; exact m.pooled, m.nodup, by rw [none']; exact m.bufOne⟩
  · rcases arr' o x (by rw [hx]; simp) with ⟨rfl, rfl⟩ | ⟨hn, hne⟩
    · rw [upd_self] at hx
      simp [Frag.setArr] at hx
      subst hx
      simp
    · have hx' : (hs o).arr x = some y := by
        by_cases ho : o = some i
        · subst ho
          rw [upd_self] at hx
          simpa [Frag.setArr, hne] using hx
        · rwa [upd_ne _ _ ho] at hx
      have := m.arrIn _ _ _ hx'
      exact prefix_get ⟨[c], rfl⟩ this
  · rw [obj'] at hv; exact m.objIn o id v hv
  · rcases arr' o x h1 with ⟨rfl, rfl⟩ | ⟨a1, a2⟩
    · rcases arr' o' _ h2 with ⟨rfl, -⟩ | ⟨b1, b2⟩
      · rfl
      · exact absurd rfl b2
    · rcases arr' o' x h2 with ⟨rfl, e⟩ | ⟨b1, b2⟩
      · exact absurd e a2
      · exact m.arrOne o o' x a1 b1
  · rw [obj'] at h1 h2; exact m.objOne o o' x h1 h2

/-- Writing to an object of a call. -/
theorem MemInv.setObj (m : MemInv σ hs) {i a : Nat} {v : PObj} (h : (hs (some i)).obj a ≠ none) :
    MemInv { σ with objs := σ.objs.set a v } (hs.upd (some i) ((hs (some i)).setObj a v)) := by
  obtain ⟨c0, hc0⟩ := Option.ne_none_iff_exists'.mp h
  have hlt : a < σ.objs.length := (List.getElem?_eq_some_iff.mp (m.objIn _ _ _ hc0)).1
  have obj' : ∀ o x, (hs.upd (some i) ((hs (some i)).setObj a v) o).obj x ≠ none → (hs o).obj x ≠ none := by
    intro o x hx
    by_cases ho : o = some i
    · subst ho
      rw [upd_self] at hx
      by_cases e : x = a
      · subst e; exact h
      · simpa [Frag.setObj, e] using hx
    · rw [upd_ne _ _ ho] at hx; exact hx
  have arr' : ∀ o, (hs.upd (some i) ((hs (some i)).setObj a v) o).arr = (hs o).arr := by
    intro o
    by_cases ho : o = some i
    · subst ho; rw [upd_self]; rfl
    · rw [upd_ne _ _ ho]
  have none' : hs.upd (some i) ((hs (some i)).setObj a v) none = hs none := upd_ne _ _ (by simp)
  refine ⟨fun o x y hx => ?_, fun o x y hx => ?_, fun o o' x h1 h2 => ?_, fun o o' x h1 h2 => m.objOne o o' x (obj' o x h1) (obj' o' x h2),
    by rw [none']; exact m.pooled, m.nodup, by rw [none']; exact m.bufOne⟩
  · rw [arr'] at hx; exact m.arrIn o x y hx
  · by_cases e : x = a
    · subst e
      have : o = some i := m.objOne o (some i) x (obj' o x (by rw [hx]; simp)) h
      subst this
      rw [upd_self] at hx
      simp [Frag.setObj] at hx
      subst hx
      simp [hlt]
    · simp only
      rw [List.getElem?_set_ne (Ne.symm e)]
      by_cases ho : o = some i
      · subst ho
        rw [upd_self] at hx
        exact m.objIn _ _ _ (by simpa [Frag.setObj, e] using hx)
      · rw [upd_ne _ _ ho] at hx; exact m.objIn _ _ _ hx
  · rw [arr'] at h1 h2; exact m.arrOne o o' x h1 h2

/-- A new object. -/
theorem MemInv.newObj (m : MemInv σ hs) (i : Nat) (v : PObj) :
    MemInv { σ with objs := σ.objs ++ [v] } (hs.upd (some i) ((hs (some i)).setObj σ.objs.length v)) := by
  have obj' : ∀ o x, (hs.upd (some i) ((hs (some i)).setObj σ.objs.length v) o).obj x ≠ none →
      (o = some i ∧ x = σ.objs.length) ∨ ((hs o).obj x ≠ none ∧ x ≠ σ.objs.length) := by
    intro o x hx
    by_cases ho : o = some i
    · subst ho
      rw [upd_self] at hx
      by_cases e : x = σ.objs.length
      · exact .inl ⟨rfl, e⟩
      · exact .inr ⟨by simpa [Frag.setObj, e] using hx, e⟩
    · rw [upd_ne _ _ ho] at hx
      refine .inr ⟨hx, ?_⟩
      rintro rfl
      exact hx (m.obj_fresh o)
  have arr' : ∀ o, (hs.upd (some i) ((hs (some i)).setObj σ.objs.length v) o).arr = (hs o).arr := by
    intro o
    by_cases ho : o = some i
    · subst ho; rw [upd_self]; rfl
    · rw [upd_ne _ _ ho]
  have none' : hs.upd (some i) ((hs (some i)).setObj σ.objs.length v) none = hs none := upd_ne _ _ (by simp)
  refine ⟨fun o x y hx => ?_, fun o x y hx => ?_, fun o o' x h1 h2 => ?_, fun o o' x h1 h2 => ?_,
    by rw [none']; exact m.pooled, m.nodup, by rw [none']; exact m.bufOne⟩
  · rw [arr'] at hx; exact m.arrIn o x y hx
  · rcases obj' o x (by rw [hx]; simp) with ⟨rfl, rfl⟩ | ⟨hn, hne⟩
    · rw [upd_self] at hx
      simp [Frag.setObj] at hx
      subst hx
      simp
    · have hx' : (hs o).obj x = some y := by
        by_cases ho : o = some i
        · subst ho
          rw [upd_self] at hx
          simpa [Frag.setObj, hne] using hx
        · rwa [upd_ne _ _ ho] at hx
      exact prefix_get ⟨[v], rfl⟩ (m.objIn _ _ _ hx')
  · rw [arr'] at h1 h2; exact m.arrOne o o' x h1 h2
  · rcases obj' o x h1 with ⟨rfl, rfl⟩ | ⟨a1, a2⟩
    · rcases obj' o' _ h2 with ⟨rfl, -⟩ | ⟨b1, b2⟩
      · rfl
      · exact absurd rfl b2
    · rcases obj' o' x h2 with ⟨rfl, e⟩ | ⟨b1, b2⟩
      · exact absurd e a2
      · exact m.objOne o o' x a1 b1

/-- The arrays reached from an object. -/
def _root_.Jettison.Model.PObj.arrs : PObj → List Nat
  | .buf s => [s.arr]
  | _ => []

/-- An object with its arrays. -/
def Frag.give (h : Frag) (id : Nat) (v : PObj) (arr : Nat → Option Bytes) : Frag :=
  ⟨fun x => if x ∈ v.arrs then arr x else h.arr x, fun x => if x = id then some v else h.obj x, h.keep⟩

/-- Without an object and its arrays. -/
def Frag.take (h : Frag) (id : Nat) (v : PObj) : Frag :=
  ⟨fun x => if x ∈ v.arrs then none else h.arr x, fun x => if x = id then none else h.obj x, h.keep⟩

/-- Moving an object with its arrays from one owner to another. -/
def Parts.move (hs : Parts) (a b : Option Nat) (id : Nat) (v : PObj) : Parts :=
  (hs.upd a ((hs a).take id v)).upd b ((hs b).give id v (hs a).arr)

theorem move_to (hs : Parts) {a b : Option Nat} (id : Nat) (v : PObj) : hs.move a b id v b = (hs b).give id v (hs a).arr := upd_self _ _ _
theorem move_from (hs : Parts) {a b : Option Nat} (hab : a ≠ b) (id : Nat) (v : PObj) : hs.move a b id v a = (hs a).take id v := by
  unfold Parts.move; rw [upd_ne _ _ hab, upd_self]
theorem move_ne (hs : Parts) {a b x : Option Nat} (id : Nat) (v : PObj) (h1 : x ≠ a) (h2 : x ≠ b) : hs.move a b id v x = hs x := by
  unfold Parts.move; rw [upd_ne _ _ h2, upd_ne _ _ h1]

theorem move_arr {a b : Option Nat} (hab : a ≠ b) {id : Nat} {v : PObj} (m : MemInv σ hs) (hv : ∀ x ∈ v.arrs, (hs a).arr x ≠ none) {o : Option Nat} {x : Nat} {c : Bytes}
    (h : (hs.move a b id v o).arr x = some c) : ∃ o', (hs o').arr x = some c ∧ (x ∈ v.arrs → o = b ∧ o' = a) ∧ (x ∉ v.arrs → o' = o) := by
  by_cases hb : o = b
  · subst hb
    rw [move_to] at h
    simp only [Frag.give] at h
    split at h
    · next hx => exact ⟨a, h, fun _ => ⟨rfl, rfl⟩, fun hn => absurd hx hn⟩
    · next hx => exact ⟨o, h, fun hn => absurd hn hx, fun _ => rfl⟩
  · by_cases ha : o = a
    · subst ha
      rw [move_from hs hab] at h
      simp only [Frag.take] at h
      split at h
      · cases h
      · next hx => exact ⟨o, h, fun hn => absurd hn hx, fun _ => rfl⟩
    · rw [move_ne _ _ _ ha hb] at h
      refine ⟨o, h, fun hx => ?_, fun _ => rfl⟩
      exact absurd (m.arrOne o a x (by rw [h]; simp) (hv x hx)) ha

theorem move_obj {a b : Option Nat} (hab : a ≠ b) {id : Nat} {v : PObj} (m : MemInv σ hs) (hv : (hs a).obj id = some v) {o : Option Nat} {x : Nat} {c : PObj}
    (h : (hs.move a b id v o).obj x = some c) : ∃ o', (hs o').obj x = some c ∧ (x = id → o = b ∧ o' = a) ∧ (x ≠ id → o' = o) := by
  by_cases hb : o = b
  · subst hb
    rw [move_to] at h
    simp only [Frag.give] at h
    split at h
    · next hx => subst hx; cases h; exact ⟨a, hv, fun _ => ⟨rfl, rfl⟩, fun hn => absurd rfl hn⟩
    · next hx => exact ⟨o, h, fun hn => absurd hn hx, fun _ => rfl⟩
  · by_cases ha : o = a
    · subst ha
      rw [move_from hs hab] at h
      simp only [Frag.take] at h
      split at h
      · cases h
      · next hx => exact ⟨o, h, fun hn => absurd hn hx, fun _ => rfl⟩
    · rw [move_ne _ _ _ ha hb] at h
      refine ⟨o, h, fun hx => ?_, fun _ => rfl⟩
      subst hx
      exact absurd (m.objOne o a x (by rw [h]; simp) (by rw [hv]; simp)) ha

/-- Moving keeps everything but the conditions on pools. -/
theorem MemInv.move (m : MemInv σ hs) {a b : Option Nat} (hab : a ≠ b) {id : Nat} {v : PObj} (hv : (hs a).obj id = some v) (ha : ∀ x ∈ v.arrs, (hs a).arr x ≠ none)
    {pool : PoolK → List Nat}
    (pooled : ∀ P x, x ∈ pool P → ∃ v', (hs.move a b id v none).obj x = some v' ∧ InPool P v' (hs.move a b id v none).arr) (nodup : ∀ P, (pool P).Nodup)
    (bufOne : ∀ x x' s s', x ∈ pool .buf → x' ∈ pool .buf → (hs.move a b id v none).obj x = some (.buf s) → (hs.move a b id v none).obj x' = some (.buf s') → s.arr = s'.arr → x = x') :
    MemInv { σ with pool := pool } (hs.move a b id v) := by
  refine ⟨fun o x c h => ?_, fun o x c h => ?_, fun o o' x h1 h2 => ?_, fun o o' x h1 h2 => ?_, pooled, nodup, bufOne⟩
  · obtain ⟨o', h', -⟩ := move_arr hab m ha h
    exact m.arrIn _ _ _ h'
  · obtain ⟨o', h', -⟩ := move_obj hab m hv h
    exact m.objIn _ _ _ h'
  · obtain ⟨c, h1⟩ := Option.ne_none_iff_exists'.mp h1
    obtain ⟨c', h2⟩ := Option.ne_none_iff_exists'.mp h2
    obtain ⟨o1, e1, a1, b1⟩ := move_arr hab m ha h1
    obtain ⟨o2, e2, a2, b2⟩ := move_arr hab m ha h2
    by_cases hx : x ∈ v.arrs
    · rw [(a1 hx).1, (a2 hx).1]
    · rw [← b1 hx, ← b2 hx]
      exact m.arrOne o1 o2 x (by rw [e1]; simp) (by rw [e2]; simp)
  · obtain ⟨c, h1⟩ := Option.ne_none_iff_exists'.mp h1
    obtain ⟨c', h2⟩ := Option.ne_none_iff_exists'.mp h2
    obtain ⟨o1, e1, a1, b1⟩ := move_obj hab m hv h1
    obtain ⟨o2, e2, a2, b2⟩ := move_obj hab m hv h2
    by_cases hx : x = id
    · rw [(a1 hx).1, (a2 hx).1]
    · rw [← b1 hx, ← b2 hx]
      exact m.objOne o1 o2 x (by rw [e1]; simp) (by rw [e2]; simp)

theorem inPool_arrs {P : PoolK} {v : PObj} {arr : Nat → Option Bytes} (h : InPool P v arr) : ∀ x ∈ v.arrs, arr x ≠ none := by
  intro x hx
  cases P with
  | buf => obtain ⟨s, c, rfl, h⟩ := h; simp [PObj.arrs] at hx; subst hx; rw [h]; simp
  | elems => cases h; simp [PObj.arrs] at hx
  | iter => obtain ⟨l, rfl⟩ := h; simp [PObj.arrs] at hx

theorem inPool_kind {P Q : PoolK} {v : PObj} {a b : Nat → Option Bytes} (h : InPool P v a) (h' : InPool Q v b) : P = Q := by
  cases v with
  | buf s =>
    have : ∀ {P a}, InPool P (.buf s) a → P = .buf := by
      intro P a h
      cases P with
      | buf => rfl
      | elems => cases h
      | iter => obtain ⟨_, e⟩ := h; cases e
    rw [this h, this h']
  | elems l =>
    have : ∀ {P a}, InPool P (.elems l) a → P = .elems := by
      intro P a h
      cases P with
      | buf => obtain ⟨_, _, e, _⟩ := h; cases e
      | elems => rfl
      | iter => obtain ⟨_, e⟩ := h; cases e
    rw [this h, this h']
  | iter l =>
    have : ∀ {P a}, InPool P (.iter l) a → P = .iter := by
      intro P a h
      cases P with
      | buf => obtain ⟨_, _, e, _⟩ := h; cases e
      | elems => cases h
      | iter => rfl
    rw [this h, this h']

/-- `Pool.Get` gives the object to the call. -/
theorem MemInv.get (m : MemInv σ hs) {i id : Nat} {P : PoolK} (hid : id ∈ σ.pool P) {v : PObj} (hv : (hs none).obj id = some v) :
    MemInv { σ with pool := fun Q => if Q = P then (σ.pool P).erase id else σ.pool Q } (hs.move none (some i) id v) := by
  obtain ⟨v', hv', hp⟩ := m.pooled P id hid
  rw [hv] at hv'; cases hv'
  have mem : ∀ {Q x}, x ∈ (if Q = P then (σ.pool P).erase id else σ.pool Q) → x ∈ σ.pool Q ∧ x ≠ id := by
    intro Q x hx
    split at hx
    · next e =>
      subst e
      exact ⟨List.mem_of_mem_erase hx, fun e => by subst e; exact (List.Nodup.not_mem_erase (m.nodup Q)) hx⟩
    · next e =>
      refine ⟨hx, ?_⟩
      rintro rfl
      obtain ⟨w, hw, hq⟩ := m.pooled Q x hx
      rw [hv] at hw; cases hw
      exact e (inPool_kind hq hp)
  refine m.move (by simp) hv (inPool_arrs hp) ?_ ?_ ?_
  · intro Q x hx0
    obtain ⟨hx, hne⟩ := mem hx0
    clear hx0
    obtain ⟨w, hw, hq⟩ := m.pooled Q x hx
    rw [move_from hs (by simp)]
    refine ⟨w, by simp [Frag.take, hne, hw], ?_⟩
    cases Q with
    | buf =>
      obtain ⟨s, c, rfl, hc⟩ := hq
      refine ⟨s, c, rfl, ?_⟩
      simp only [Frag.take]
      rw [if_neg, hc]
      intro hs'
      cases v with
      | buf s' =>
        simp [PObj.arrs] at hs'
        have : P = .buf := by
          have h' : InPool .buf (.buf s') (hs none).arr := by
            cases P with
            | buf => exact hp
            | elems => cases hp
            | iter => obtain ⟨_, e⟩ := hp; cases e
          exact inPool_kind hp h'
        subst this
        exact hne (m.bufOne x id s s' hx hid hw hv hs')
      | elems l => simp [PObj.arrs] at hs'
      | iter l => simp [PObj.arrs] at hs'
    | elems => exact hq
    | iter => exact hq
  · intro Q
    show (if Q = P then (σ.pool P).erase id else σ.pool Q).Nodup
    split
    · exact (m.nodup P).erase id
    · exact m.nodup Q
  · intro x x' s s' hx hx' h1 h2 h3
    obtain ⟨hx, hne⟩ := mem hx
    obtain ⟨hx', hne'⟩ := mem hx'
    rw [move_from hs (by simp)] at h1 h2
    simp only [Frag.take, if_neg hne] at h1
    simp only [Frag.take, if_neg hne'] at h2
    exact m.bufOne x x' s s' hx hx' h1 h2 h3

/-- `Pool.Put` takes it from the call. -/
theorem MemInv.put (m : MemInv σ hs) {i id : Nat} {P : PoolK} {v : PObj} (hv : (hs (some i)).obj id = some v) (hp : InPool P v (hs (some i)).arr) :
    MemInv { σ with pool := fun Q => if Q = P then id :: σ.pool P else σ.pool Q } (hs.move (some i) none id v) := by
  have hfresh : ∀ {Q x}, x ∈ σ.pool Q → x ≠ id := by
    rintro Q x hx rfl
    obtain ⟨w, hw, -⟩ := m.pooled Q x hx
    have := m.objOne none (some i) x (by rw [hw]; simp) (by rw [hv]; simp)
    cases this
  have mem : ∀ {Q x}, x ∈ (if Q = P then id :: σ.pool P else σ.pool Q) → (x = id ∧ Q = P) ∨ (x ∈ σ.pool Q ∧ x ≠ id) := by
    intro Q x hx
    split at hx
    · next e =>
      subst e
      rcases List.mem_cons.mp hx with rfl | hx
      · exact .inl ⟨rfl, rfl⟩
      · exact .inr ⟨hx, hfresh hx⟩
    · exact .inr ⟨hx, hfresh hx⟩
  have own : ∀ {Q x s}, x ∈ σ.pool Q → (hs none).obj x = some (.buf s) → s.arr ∉ v.arrs := by
    intro Q x s hx hxs hmem
    obtain ⟨w, hw, hq⟩ := m.pooled Q x hx
    rw [hxs] at hw; cases hw
    have := m.arrOne none (some i) s.arr (inPool_arrs hq s.arr (by simp [PObj.arrs])) (inPool_arrs hp _ hmem)
    cases this
  refine m.move (by simp) hv (inPool_arrs hp) ?_ ?_ ?_
  · intro Q x hx
    rw [move_to]
    rcases mem hx with ⟨rfl, rfl⟩ | ⟨hx, hne⟩
    · refine ⟨v, by simp [Frag.give], ?_⟩
      cases Q with
      | buf =>
        obtain ⟨s, c, rfl, hc⟩ := hp
        exact ⟨s, c, rfl, by simp [Frag.give, PObj.arrs, hc]⟩
      | elems => exact hp
      | iter => exact hp
    · obtain ⟨w, hw, hq⟩ := m.pooled Q x hx
      refine ⟨w, by simp [Frag.give, hne, hw], ?_⟩
      cases Q with
      | buf =>
        obtain ⟨s, c, rfl, hc⟩ := hq
        exact ⟨s, c, rfl, by simp only [Frag.give]; rw [if_neg (own hx hw), hc]⟩
      | elems => exact hq
      | iter => exact hq
  · intro Q
    show (if Q = P then id :: σ.pool P else σ.pool Q).Nodup
    split
    · exact List.nodup_cons.mpr ⟨fun h => hfresh h rfl, m.nodup P⟩
    · exact m.nodup Q
  · intro x x' s s' hx hx' h1 h2 h3
    rw [move_to] at h1 h2
    have arrOf : ∀ {y t}, y = id → (if y = id then some v else (hs none).obj y) = some (.buf t) → t.arr ∈ v.arrs := by
      rintro y t rfl e
      simp at e
      subst e
      simp [PObj.arrs]
    rcases mem hx with ⟨rfl, -⟩ | ⟨hx1, hne⟩
    · rcases mem hx' with ⟨rfl, -⟩ | ⟨hx', hne'⟩
      · rfl
      · have a1 := arrOf rfl h1
        simp only [Frag.give, if_neg hne'] at h2
        rw [h3] at a1
        exact absurd a1 (own hx' h2)
    · simp only [Frag.give, if_neg hne] at h1
      rcases mem hx' with ⟨rfl, -⟩ | ⟨hx', hne'⟩
      · have a2 := arrOf rfl h2
        rw [← h3] at a2
        exact absurd a2 (own hx1 h1)
      · simp only [Frag.give, if_neg hne'] at h2
        exact m.bufOne x x' s s' hx1 hx' h1 h2 h3

/-- A call forgets about some of its arrays. -/
theorem MemInv.sub (m : MemInv σ hs) {i : Nat} {h : Frag} (hh : h.Sub (hs (some i))) : MemInv σ (hs.upd (some i) h) := by
  have arr' : ∀ o x c, (hs.upd (some i) h o).arr x = some c → (hs o).arr x = some c := by
    intro o x c hx
    by_cases ho : o = some i
    · subst ho; rw [upd_self] at hx; exact hh.arr x c hx
    · rw [upd_ne _ _ ho] at hx; exact hx
  have some' : ∀ o x, (hs.upd (some i) h o).arr x ≠ none → (hs o).arr x ≠ none := by
    intro o x hx
    obtain ⟨c, hc⟩ := Option.ne_none_iff_exists'.mp hx
    rw [arr' o x c hc]; simp
  have obj' : ∀ o x v, (hs.upd (some i) h o).obj x = some v → (hs o).obj x = some v := by
    intro o x v hx
    by_cases ho : o = some i
    · subst ho; rw [upd_self] at hx; exact hh.obj x v hx
    · rw [upd_ne _ _ ho] at hx; exact hx
  have osome' : ∀ o x, (hs.upd (some i) h o).obj x ≠ none → (hs o).obj x ≠ none := by
    intro o x hx
    obtain ⟨c, hc⟩ := Option.ne_none_iff_exists'.mp hx
    rw [obj' o x c hc]; simp
  have none' : hs.upd (some i) h none = hs none := upd_ne _ _ (by simp)
  refine ⟨fun o x c hx => m.arrIn o x c (arr' o x c hx), fun o x c hx => m.objIn o x c (obj' o x c hx), fun o o' x h1 h2 => m.arrOne o o' x (some' o x h1) (some' o' x h2),
    fun o o' x h1 h2 => m.objOne o o' x (osome' o x h1) (osome' o' x h2), by rw [none']; exact m.pooled, m.nodup, by rw [none']; exact m.bufOne⟩

/-- The garbage collector empties a pool. -/
theorem MemInv.drop (m : MemInv σ hs) {id : Nat} {P : PoolK} : MemInv { σ with pool := fun Q => if Q = P then (σ.pool P).erase id else σ.pool Q } hs := by
  have mem : ∀ {Q x}, x ∈ (if Q = P then (σ.pool P).erase id else σ.pool Q) → x ∈ σ.pool Q := by
    intro Q x hx
    split at hx
    · next e => subst e; exact List.mem_of_mem_erase hx
    · exact hx
  refine ⟨m.arrIn, m.objIn, m.arrOne, m.objOne, fun Q x hx => m.pooled Q x (mem hx), fun Q => ?_,
    fun x x' s s' hx hx' => m.bufOne x x' s s' (mem hx) (mem hx')⟩
  show (if Q = P then (σ.pool P).erase id else σ.pool Q).Nodup
  split
  · exact (m.nodup P).erase id
  · exact m.nodup Q

end Jettison.Proofs
