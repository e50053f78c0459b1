import Verif.Props.ConcEx

/-!
# The destination of Append (C62) and data races (C63)

As in `Concurrent`, the theorems are about every reachable state of any number of
goroutines under any schedule.
-/

namespace Jettison.Props
open Jettison Jettison.Spec Jettison.Model Jettison.Proofs

variable {W : World} {g n : Nat} {C C' : Conf}

theorem reached_steps (hr : Reached W g n C) (hst : CSteps W g n C C') : Reached W g n C' := by
  induction hst with
  | refl => exact hr
  | step _ h ih => exact .step ih h

/-! ## The destination of Append -/

/-- `AppendOpts` is called with a slice of length `dst.length` in an array with the content `dst ++ spare`. -/
def appended (W : World) (g n : Nat) (C : Conf) (c : Call) (dst spare : Bytes) : Conf :=
  ⟨{ C.sh with arrs := C.sh.arrs ++ [dst ++ spare] }, C.thr ++ [⟨c, c.append W g n ⟨C.sh.arrs.length, dst.length⟩, [], []⟩]⟩

theorem appended_step {c : Call} {dst : Bytes} (spare : Bytes) (hd : c.dst = some dst) : CStep W g n C (appended W g n C c dst spare) := .append spare hd

theorem steps_keep (hfl : FmtLong W.fmt) {K : Known} {hs : Parts} {ws : Nat → Owed} (m : ConfInv W g n C K hs ws) {i a : Nat} (hk : (hs (some i)).keep a ≠ [])
    (hst : CSteps W g n C C') (hh : AllHonest C') : ∃ K' hs' ws', ConfInv W g n C' K' hs' ws' ∧ (hs' (some i)).keep a = (hs (some i)).keep a := by
  induction hst with
  | refl => exact ⟨K, hs, ws, m, rfl⟩
  | step h1 h2 ih =>
    obtain ⟨K1, hs1, ws1, m1, e1⟩ := ih (honest_before h2 hh)
    obtain ⟨K2, hs2, ws2, m2, -, l2⟩ := step_inv hfl hh m1 h2
    exact ⟨K2, hs2, ws2, m2, (l2 i a (by rw [e1]; exact hk)).trans e1⟩

/-- Arrays neither grow nor shrink. -/
theorem op_arrLen {o : Op} {σ σ' : Shared} {x : o.Res} (h : o.step σ σ' x) {a : Nat} {c : Bytes} (ha : σ.arrs[a]? = some c) :
    ∃ c', σ'.arrs[a]? = some c' ∧ c'.length = c.length := by
  have set : ∀ {b : Nat} {c1 : Bytes} {c0 : Bytes}, σ.arrs[b]? = some c0 → c1.length = c0.length → ∃ c', (σ.arrs.set b c1)[a]? = some c' ∧ c'.length = c.length := by
    intro b c1 c0 hb hl
    have hlt := (List.getElem?_eq_some_iff.mp ha).1
    by_cases e : b = a
    · subst e
      rw [hb] at ha; cases ha
      exact ⟨c1, by simp [hlt], hl⟩
    · exact ⟨c, by rw [List.getElem?_set_ne e, ha], rfl⟩
  have snoc : ∀ {l : List Bytes} {y c0 : Bytes}, l[a]? = some c0 → (l ++ [y])[a]? = some c0 := fun h => prefix_get ⟨_, rfl⟩ h
  cases o with
  | write s b =>
    obtain ⟨c0, h0, ⟨c1, e1, -, -, -, rfl⟩ | ⟨c1, c2, e1, -, -, -, -, rfl⟩⟩ := h
    · exact set h0 e1
    · obtain ⟨c', h1, h2⟩ := set h0 e1
      exact ⟨c', snoc h1, h2⟩
  | scratch s => obtain ⟨c0, c1, h0, -, e1, -, rfl, -⟩ := h; exact set h0 e1
  | back m c0 l out => cases h; exact ⟨c, ha, rfl⟩
  | alloc b => obtain ⟨j, rfl, -⟩ := h; exact ⟨c, snoc ha, rfl⟩
  | get P =>
    rcases h with ⟨-, rfl⟩ | ⟨v, arrs, hf, rfl, -⟩
    · exact ⟨c, ha, rfl⟩
    · cases hf with
      | buf junk => exact ⟨c, snoc ha, rfl⟩
      | elems => exact ⟨c, ha, rfl⟩
      | iter => exact ⟨c, ha, rfl⟩
  | loadOrStore k =>
    simp only [Op.step] at h
    split at h <;> obtain ⟨rfl, -⟩ := h <;> exact ⟨c, ha, rfl⟩
  | addFields t l =>
    simp only [Op.step] at h
    split at h <;> obtain ⟨rfl, -⟩ := h <;> exact ⟨c, ha, rfl⟩
  | addEmpty t l =>
    simp only [Op.step] at h
    split at h <;> obtain ⟨rfl, -⟩ := h <;> exact ⟨c, ha, rfl⟩
  | setIns p f => obtain ⟨s, -, rfl⟩ := h; exact ⟨c, ha, rfl⟩
  | done p => obtain ⟨s, -, rfl⟩ := h; exact ⟨c, ha, rfl⟩
  | storeCache l => cases h; exact ⟨c, ha, rfl⟩
  | storeStruct k f => cases h; exact ⟨c, ha, rfl⟩
  | put P id => cases h; exact ⟨c, ha, rfl⟩
  | store id v => obtain ⟨-, rfl⟩ := h; exact ⟨c, ha, rfl⟩
  | loadInstr t => obtain ⟨rfl, -⟩ := h; exact ⟨c, ha, rfl⟩
  | loadCache => obtain ⟨rfl, -⟩ := h; exact ⟨c, ha, rfl⟩
  | loadStruct k => obtain ⟨rfl, -⟩ := h; exact ⟨c, ha, rfl⟩
  | newClosure k => obtain ⟨rfl, -⟩ := h; exact ⟨c, ha, rfl⟩
  | wait p => obtain ⟨rfl, -⟩ := h; exact ⟨c, ha, rfl⟩
  | captured p => obtain ⟨rfl, -⟩ := h; exact ⟨c, ha, rfl⟩
  | loadFields t => obtain ⟨rfl, -⟩ := h; exact ⟨c, ha, rfl⟩
  | loadEmpty t => obtain ⟨rfl, -⟩ := h; exact ⟨c, ha, rfl⟩
  | read s => obtain ⟨rfl, -⟩ := h; exact ⟨c, ha, rfl⟩
  | load id => obtain ⟨rfl, -⟩ := h; exact ⟨c, ha, rfl⟩

theorem steps_arrLen (hst : CSteps W g n C C') {a : Nat} {c : Bytes} (ha : C.sh.arrs[a]? = some c) : ∃ c', C'.sh.arrs[a]? = some c' ∧ c'.length = c.length := by
  induction hst with
  | refl => exact ⟨c, ha, rfl⟩
  | step h1 h2 ih =>
    obtain ⟨c1, e1, l1⟩ := ih
    cases h2 with
    | marshal hd => exact ⟨c1, e1, l1⟩
    | append junk hd => exact ⟨c1, prefix_get ⟨_, rfl⟩ e1, l1⟩
    | drop hid => exact ⟨c1, e1, l1⟩
    | method hm =>
      cases hm with
      | @scribble T s k c2 c3 _ _ h2 l2 _ =>
        have hlt := (List.getElem?_eq_some_iff.mp e1).1
        by_cases e : s.arr = a
        · subst e
          rw [e1] at h2; cases h2
          exact ⟨c3, by simp [hlt], l2.trans l1⟩
        · exact ⟨c1, by simp only [List.getElem?_set_ne e, e1], l1⟩
      | innerMarshal _ _ _ _ => exact ⟨c1, e1, l1⟩
      | innerAppend junk _ _ _ _ => exact ⟨c1, prefix_get ⟨_, rfl⟩ e1, l1⟩
      | innerDst _ _ _ _ _ _ _ => exact ⟨c1, e1, l1⟩
    | op hst =>
      obtain ⟨hi, ho⟩ := hst
      obtain ⟨c2, e2, l2⟩ := op_arrLen ho e1
      exact ⟨c2, e2, l2.trans l1⟩

/-- C62: from the moment `Append` is called, and in every later state — while the call
runs, when it has returned, failed or panicked, whether or not it has moved to a bigger
array — the array the caller gave holds the bytes of `dst` where they were. -/
theorem C62_kept (hl : FormatContract W.fmt) (hr : Reached W g n C) {c : Call} {dst : Bytes} (spare : Bytes) (hd : c.dst = some dst)
    (hst : CSteps W g n (appended W g n C c dst spare) C') (hh : AllHonest C') :
    ∃ rest, C'.sh.arrs[C.sh.arrs.length]? = some (dst ++ rest) ∧ rest.length = spare.length := by
  have hfl := contract_long hl
  have h0 : (appended W g n C c dst spare).sh.arrs[C.sh.arrs.length]? = some (dst ++ spare) := by simp [appended]
  obtain ⟨b, hb, hlen⟩ := steps_arrLen hst h0
  rw [List.length_append] at hlen
  by_cases he : dst = []
  · subst he; exact ⟨b, hb, by simpa using hlen⟩
  · have hh1 := honest_steps hst hh
    obtain ⟨K, hs, ws, m⟩ := reached_inv hfl hr (honest_before (appended_step spare hd) hh1)
    obtain ⟨hs1, m1, -, k1⟩ := append_inv hfl spare hd hh1 m
    obtain ⟨K2, hs2, ws2, m2, k2⟩ := steps_keep hfl m1 (by rw [k1]; exact he) hst hh
    rw [k1] at k2
    have hk := m2.kept C.thr.length C.sh.arrs.length
    rw [k2] at hk
    cases ha : (hs2 (some C.thr.length)).arr C.sh.arrs.length with
    | none => rw [ha] at hk; exact absurd (List.prefix_nil.mp hk) he
    | some b' =>
      rw [ha] at hk
      have := m2.mem.arrIn _ _ _ ha
      rw [hb] at this; cases this
      obtain ⟨t, rfl⟩ := hk
      exact ⟨t, hb, by rw [List.length_append] at hlen; omega⟩

/-- C62: the slice the caller gave reads as before, at any time. -/
theorem C62_reads (hl : FormatContract W.fmt) (hr : Reached W g n C) {c : Call} {dst : Bytes} (spare : Bytes) (hd : c.dst = some dst)
    (hst : CSteps W g n (appended W g n C c dst spare) C') (hh : AllHonest C') :
    C'.sh.bytes ⟨C.sh.arrs.length, dst.length⟩ = some dst := by
  obtain ⟨rest, h, -⟩ := C62_kept hl hr spare hd hst hh
  simp [Shared.bytes, h]

theorem op_returned (hl : FormatContract W.fmt) (hr : Reached W g n C) (hh : AllHonest C) {i : Nat} (hst : OStep i C C') {j : Nat} {T : Thread} {s : Sl} {e : Option ApiErr}
    (hj : C.thr[j]? = some T) (ho : Returned T (.ret (some s) e)) : C'.sh.arrs[s.arr]? = C.sh.arrs[s.arr]? := by
  have h3 := (C34_disjoint hl hr hh hj ho).2.2
  obtain ⟨K, hs, ws, m⟩ := reached_inv (contract_long hl) hr hh
  have hin : ∃ c, C.sh.arrs[s.arr]? = some c := by
    have := C31_result hl hr hh (List.mem_of_getElem? hj) ho
    cases h : C.sh.arrs[s.arr]? with
    | none => simp [Out.view, Shared.bytes, h] at this
    | some c => exact ⟨c, rfl⟩
  obtain ⟨c, hc⟩ := hin
  rw [hc]
  obtain ⟨hi, hop⟩ := hst
  rename_i c' o k held inner σ x
  cases o with
  | write s' b =>
    have hne : s'.arr ≠ s.arr := h3 i _ (.write s' b) k s'.arr hi rfl rfl
    obtain ⟨c0, h0, ⟨c1, -, -, -, -, rfl⟩ | ⟨c1, c2, -, -, -, -, -, rfl⟩⟩ := hop
    · simp only [List.getElem?_set_ne hne, hc]
    · exact prefix_get ⟨_, rfl⟩ (by rw [List.getElem?_set_ne hne, hc])
  | scratch s' =>
    have hne : s'.arr ≠ s.arr := h3 i _ (.scratch s') k s'.arr hi rfl rfl
    obtain ⟨c0, c1, -, -, -, -, rfl, -⟩ := hop
    simp only [List.getElem?_set_ne hne, hc]
  | back m c0 l out => cases hop; exact hc
  | alloc b => obtain ⟨j, rfl, -⟩ := hop; exact prefix_get ⟨_, rfl⟩ hc
  | get P =>
    rcases hop with ⟨-, rfl⟩ | ⟨v, arrs, hf, rfl, -⟩
    · exact hc
    · cases hf with
      | buf junk => exact prefix_get ⟨_, rfl⟩ hc
      | elems => exact hc
      | iter => exact hc
  | loadOrStore k =>
    simp only [Op.step] at hop
    split at hop <;> obtain ⟨rfl, -⟩ := hop <;> exact hc
  | addFields t l =>
    simp only [Op.step] at hop
    split at hop <;> obtain ⟨rfl, -⟩ := hop <;> exact hc
  | addEmpty t l =>
    simp only [Op.step] at hop
    split at hop <;> obtain ⟨rfl, -⟩ := hop <;> exact hc
  | setIns p f => obtain ⟨s, -, rfl⟩ := hop; exact hc
  | done p => obtain ⟨s, -, rfl⟩ := hop; exact hc
  | storeCache l => cases hop; exact hc
  | storeStruct k f => cases hop; exact hc
  | put P id => cases hop; exact hc
  | store id v => obtain ⟨-, rfl⟩ := hop; exact hc
  | loadInstr t => obtain ⟨rfl, -⟩ := hop; exact hc
  | loadCache => obtain ⟨rfl, -⟩ := hop; exact hc
  | loadStruct k => obtain ⟨rfl, -⟩ := hop; exact hc
  | newClosure k => obtain ⟨rfl, -⟩ := hop; exact hc
  | wait p => obtain ⟨rfl, -⟩ := hop; exact hc
  | captured p => obtain ⟨rfl, -⟩ := hop; exact hc
  | loadFields t => obtain ⟨rfl, -⟩ := hop; exact hc
  | loadEmpty t => obtain ⟨rfl, -⟩ := hop; exact hc
  | read s => obtain ⟨rfl, -⟩ := hop; exact hc
  | load id => obtain ⟨rfl, -⟩ := hop; exact hc

/-- C62: nothing done after a call has returned changes the array of the slice it returned,
not even beyond the end of the slice: the caller may append to it in place. -/
theorem C62_spare (hl : FormatContract W.fmt) (hr : Reached W g n C) (hst : CSteps W g n C C') (hh : AllHonest C') {i : Nat} {T : Thread} {s : Sl} {e : Option ApiErr}
    (hi : C.thr[i]? = some T) (ho : Returned T (.ret (some s) e)) : C'.sh.arrs[s.arr]? = C.sh.arrs[s.arr]? := by
  induction hst with
  | refl => rfl
  | step h1 h2 ih =>
    have hh1 := honest_before h2 hh
    have e1 := ih hh1
    have hi1 := (C34_stable hl hr h1 hh1 hi ho).1
    have hr1 := reached_steps hr h1
    rename_i C1 C2
    have hin : ∃ c, C1.sh.arrs[s.arr]? = some c := by
      have := C31_result hl hr1 hh1 (List.mem_of_getElem? hi1) ho
      cases h : C1.sh.arrs[s.arr]? with
      | none => simp [Out.view, Shared.bytes, h] at this
      | some c => exact ⟨c, rfl⟩
    cases h2 with
    | marshal hd => exact e1
    | drop hid => exact e1
    | op hop => rw [op_returned hl hr1 hh1 hop hi1 ho, e1]
    | append junk hd =>
      rw [← e1]
      obtain ⟨c, h⟩ := hin
      rw [h]; exact prefix_get ⟨_, rfl⟩ h
    | method hm =>
      cases hm with
      | @scribble T' s' k c2 c3 hj hp _ _ _ =>
        have hne : s'.arr ≠ s.arr := (C34_disjoint hl hr1 hh1 hi1 ho).2.2 _ _ (.scratch s') k s'.arr hj hp rfl
        simp only [List.getElem?_set_ne hne, e1]
      | innerMarshal _ _ _ _ => exact e1
      | innerAppend junk _ _ _ _ =>
        rw [← e1]
        obtain ⟨c, h⟩ := hin
        rw [h]; exact prefix_get ⟨_, rfl⟩ h
      | innerDst _ _ _ _ _ _ _ => exact e1

/-! ## Data races -/

/-- C63: two calls that are both running never are about to touch the same array. -/
theorem C63_arrays (hl : FormatContract W.fmt) (hr : Reached W g n C) (hh : AllHonest C) {i j : Nat} {T T' : Thread} (hi : C.thr[i]? = some T) (hj : C.thr[j]? = some T')
    (hij : i ≠ j) {o o' : Op} {k : o.Res → Prog Out} {k' : o'.Res → Prog Out} (hp : T.prog = .op o k) (hp' : T'.prog = .op o' k') {a : Nat} (ha : Touches o a) : ¬ Touches o' a := by
  obtain ⟨K, hs, ws, m⟩ := reached_inv (contract_long hl) hr hh
  have own : ∀ {i : Nat} {T : Thread} {o : Op} {k : o.Res → Prog Out}, C.thr[i]? = some T → T.prog = .op o k → Touches o a → (hs (some i)).arr a ≠ none := by
    intro i T o k hi hp ha
    have hm := m.meets i _ hi
    rw [hp] at hm
    have hg := hm K (.refl K)
    cases o with
    | read s => obtain ⟨-, c, h1, -⟩ := hg; rw [show a = s.arr from ha, h1]; simp
    | scratch s => obtain ⟨-, -, c, h1, -⟩ := hg; rw [show a = s.arr from ha, h1]; simp
    | write s b => obtain ⟨c, h1, -⟩ := hg; rw [show a = s.arr from ha, h1]; simp
    | _ => exact ha.elim
  intro ha'
  have := m.mem.arrOne (some i) (some j) a (own hi hp ha) (own hj hp' ha')
  cases this; exact hij rfl

/-- C63: nor the same pooled object; and an object in a pool is touched by none. -/
theorem C63_objects (hl : FormatContract W.fmt) (hr : Reached W g n C) (hh : AllHonest C) {i : Nat} {T : Thread} (hi : C.thr[i]? = some T)
    {o : Op} {k : o.Res → Prog Out} (hp : T.prog = .op o k) {id : Nat} (ha : Uses o id) :
    (∀ P, id ∉ C.sh.pool P) ∧ ∀ j T' (o' : Op) k', i ≠ j → C.thr[j]? = some T' → T'.prog = .op o' k' → ¬ Uses o' id := by
  have h := C34_held hl hr hh hi
  have hid := h.2.2.2.2.2.1 o k id hp ha
  refine ⟨fun P hP => h.2.2.2.1 P id hP hid, fun j T' o' k' hij hj hp' ha' => ?_⟩
  exact h.2.2.1 j T' (Ne.symm hij) hj id ((C34_held hl hr hh hj).2.2.2.2.2.1 o' k' id hp' ha') hid

/-- The operation completes the placeholder: it sets the instruction or lets the waiting go on. -/
def Completes : Op → Nat → Prop
  | .setIns p _, a => a = p
  | .done p, a => a = p
  | _, _ => False

/-- C63: whoever is about to set the instruction of a placeholder, or to let those waiting
for it go on, is the only one, and no one can have seen the instruction yet: none of those
waiting can go on. It lets them go on only after having set the instruction. -/
theorem C63_placeholder (hl : FormatContract W.fmt) (hr : Reached W g n C) (hh : AllHonest C) {i : Nat} {T : Thread} (hi : C.thr[i]? = some T)
    {o : Op} {k : o.Res → Prog Out} (hp : T.prog = .op o k) {p : Nat} (ha : Completes o p) :
    (∃ s, C.sh.slots[p]? = some s ∧ s.done = false ∧ (o = .done p → s.ins ≠ none)) ∧
    (∀ σ x, ¬ (Op.wait p).step C.sh σ x) ∧
    ∀ j T' (o' : Op) k', i ≠ j → C.thr[j]? = some T' → T'.prog = .op o' k' → ¬ Completes o' p := by
  obtain ⟨K, hs, ws, m⟩ := reached_inv (contract_long hl) hr hh
  have own : ∀ {i : Nat} {T : Thread} {o : Op} {k : o.Res → Prog Out}, C.thr[i]? = some T → T.prog = .op o k → Completes o p →
      ∃ x, (p, x) ∈ ws i ∧ (o = .done p → x ≠ none) := by
    intro i T o k hi hp ha
    have hm := m.meets i _ hi
    rw [hp] at hm
    have hg := hm K (.refl K)
    cases o with
    | setIns c f =>
      obtain ⟨x, w', k, hw, -⟩ := hg
      exact ⟨x, by rw [hw, show p = c from ha]; exact List.mem_cons_self, fun e => by cases e⟩
    | done c =>
      obtain ⟨f, w', hw, -⟩ := hg
      exact ⟨some f, by rw [hw, show p = c from ha]; exact List.mem_cons_self, fun _ => by simp⟩
    | _ => exact ha.elim
  obtain ⟨x, hx, hd⟩ := own hi hp ha
  have hs1 := m.gen.owed i p x hx
  refine ⟨⟨_, hs1, rfl, hd⟩, fun σ y hst => ?_, fun j T' o' k' hij hj hp' ha' => ?_⟩
  · obtain ⟨-, e⟩ := hst
    rw [hs1] at e; cases e
  · obtain ⟨y, hy, -⟩ := own hj hp' ha'
    exact hij (m.gen.owedOne i j p x y hx hy)

/-- C63: a completed placeholder does not change any more. -/
theorem C63_final (hl : FormatContract W.fmt) (hr : Reached W g n C) (hst : CSteps W g n C C') (hh : AllHonest C') {p : Nat} {s : Slot}
    (hs : C.sh.slots[p]? = some s) (hd : s.done = true) : C'.sh.slots[p]? = some s := by
  induction hst with
  | refl => exact hs
  | step h1 h2 ih =>
    rename_i C1 C2
    have hh1 := honest_before h2 hh
    have hr1 := reached_steps hr h1
    have e := ih hh1
    cases h2 with
    | marshal hd => exact e
    | append junk hd => exact e
    | drop hid => exact e
    | method hm => cases hm <;> exact e
    | op hst =>
      obtain ⟨hi, hop⟩ := hst
      rename_i c' o k held inner σ x
      have key : ¬ Completes o p := by
        intro hc
        obtain ⟨⟨s', e', d', -⟩, -⟩ := C63_placeholder hl hr1 hh1 hi rfl hc
        rw [e] at e'; cases e'
        rw [hd] at d'; cases d'
      cases o with
      | setIns q f =>
        obtain ⟨s', -, rfl⟩ := hop
        have hne : q ≠ p := fun h => key h.symm
        simp only [List.getElem?_set_ne hne, e]
      | done q =>
        obtain ⟨s', -, rfl⟩ := hop
        have hne : q ≠ p := fun h => key h.symm
        simp only [List.getElem?_set_ne hne, e]
      | loadOrStore k =>
        simp only [Op.step] at hop
        split at hop <;> obtain ⟨rfl, -⟩ := hop
        · exact e
        · exact prefix_get ⟨_, rfl⟩ e
      | addFields t l =>
        simp only [Op.step] at hop
        split at hop <;> obtain ⟨rfl, -⟩ := hop <;> exact e
      | addEmpty t l =>
        simp only [Op.step] at hop
        split at hop <;> obtain ⟨rfl, -⟩ := hop <;> exact e
      | write s' b => obtain ⟨c0, h0, ⟨c1, -, -, -, -, rfl⟩ | ⟨c1, c2, -, -, -, -, -, rfl⟩⟩ := hop <;> exact e
      | scratch s' => obtain ⟨c0, c1, -, -, -, -, rfl, -⟩ := hop; exact e
      | back m c0 l out => cases hop; exact e
      | alloc b => obtain ⟨j, rfl, -⟩ := hop; exact e
      | get P => rcases hop with ⟨-, rfl⟩ | ⟨v, arrs, hf, rfl, -⟩ <;> exact e
      | storeCache l => cases hop; exact e
      | storeStruct k f => cases hop; exact e
      | put P id => cases hop; exact e
      | store id v => obtain ⟨-, rfl⟩ := hop; exact e
      | loadInstr t => obtain ⟨rfl, -⟩ := hop; exact e
      | loadCache => obtain ⟨rfl, -⟩ := hop; exact e
      | loadStruct k => obtain ⟨rfl, -⟩ := hop; exact e
      | newClosure k => obtain ⟨rfl, -⟩ := hop; exact e
      | wait p => obtain ⟨rfl, -⟩ := hop; exact e
      | captured p => obtain ⟨rfl, -⟩ := hop; exact e
      | loadFields t => obtain ⟨rfl, -⟩ := hop; exact e
      | loadEmpty t => obtain ⟨rfl, -⟩ := hop; exact e
      | read s => obtain ⟨rfl, -⟩ := hop; exact e
      | load id => obtain ⟨rfl, -⟩ := hop; exact e

/-! ## Concrete cases -/

theorem trySteps_from {W : World} {g n : Nat} : ∀ (l : List Nat) {C0 C : Conf}, CSteps W g n C0 C → CSteps W g n C0 (trySteps l C)
  | [], _, _, h => h
  | i :: l, _, C, h => by
    refine trySteps_from l ?_
    have := tryStep_ok W g n i C
    generalize tryStep i C = D at this
    cases this with
    | pause => exact h
    | step hs => exact .step h hs

/-- `Append` of two nodes to `x=` in an array with room for 40 bytes more. -/
def roomy : Conf := appended shopW 20 9 ⟨.init, []⟩ callB (b! "x=") (List.replicate 40 9)

/-- It is done in place. -/
example : (trySteps (List.replicate 200 0) roomy).sh.arrs[0]? = some (b! "x={\"N\":1,\"Next\":{\"N\":2,\"Next\":null}}" ++ List.replicate 6 9) ∧
    results (trySteps (List.replicate 200 0) roomy) = [some (.ret (some (b! "x={\"N\":1,\"Next\":{\"N\":2,\"Next\":null}}")) none)] := by decide +kernel

theorem roomy_honest (l : List Nat) : AllHonest (trySteps l roomy) := by
  refine honest_try l _ fun T hT => ?_
  simp only [roomy, appended, List.nil_append, List.mem_cons, List.not_mem_nil, or_false] at hT
  subst hT
  exact List.forall_mem_singleton.mpr (shop_honest nodeCells)

/-- The theorem applies to each moment of this run. -/
example (k : Nat) : (trySteps (List.replicate k 0) roomy).sh.bytes ⟨0, 2⟩ = some (b! "x=") :=
  C62_reads toyFmt_contract .refl (List.replicate 40 9) rfl (trySteps_from _ .refl) (roomy_honest _)

/-- What the goroutines are about to touch. -/
def touching (C : Conf) : List (Option Nat) :=
  C.thr.map fun T => match T.prog with | .op (.read s) _ => some s.arr | .op (.scratch s) _ => some s.arr | .op (.write s _) _ => some s.arr | _ => none

/-- All three are about to touch arrays. -/
example : touching (demo 88) = [some 10, some 9, some 8] := by decide +kernel

/-- What the goroutines are about to complete. -/
def completing (C : Conf) : List (Option Nat) :=
  C.thr.map fun T => match T.prog with | .op (.setIns p _) _ => some p | .op (.done p) _ => some p | _ => none

/-- The first is about to complete the placeholder the second waits for. -/
example : completing (demo 17) = [some 1, none, none] ∧ waiting (demo 17) = [false, true, false] := by decide +kernel

/-- Later it is completed. -/
example : ((demo 20).sh.slots[1]?).map (·.done) = some true := by decide +kernel

end Jettison.Props
