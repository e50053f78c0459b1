import Verif.Proofs.Fair
import Verif.Props.MapsEx
import Verif.Props.Levels

/-!
# Concurrent calls (C31, C32, C34, C35)

The theorems are about every reachable state of any number of goroutines that call the
library in any order, with any schedule and any behaviour of the pools.
-/

namespace Jettison.Props
open Jettison Jettison.Spec Jettison.Model Jettison.Proofs

variable {W : World} {g n : Nat} {C C' : Conf}

/-- A call that has returned. -/
def Returned (T : Thread) (out : Out) : Prop := T.prog = .ret out

/-- C31, C35: whatever the other calls did before and meanwhile, a call that has returned
gave the result of the same call made alone, with all caches and pools empty. -/
theorem C31_result (hl : FormatContract W.fmt) (hr : Reached W g n C) (hh : AllHonest C) {T : Thread} (hT : T ∈ C.thr) {out : Out}
    (ho : Returned T out) : out.view C.sh = some (T.call.alone W n) := by
  obtain ⟨K, hs, ws, m⟩ := reached_inv (contract_long hl) hr hh
  obtain ⟨i, hi, rfl⟩ := List.getElem_of_mem hT
  have hm := m.meets i _ (List.getElem?_eq_getElem hi)
  unfold Returned at ho
  rw [ho] at hm
  obtain ⟨-, hm⟩ := hm K (.refl K)
  generalize C.thr[i].call.alone W n = R at hm ⊢
  cases out with
  | ret b e =>
    cases b with
    | none =>
      cases R with
      | ret b' e' =>
        cases b' with
        | none => simp only at hm; rw [hm.1]; rfl
        | some _ => exact hm.elim
      | panic => exact hm.elim
      | bad => exact hm.elim
      | nofuel => exact hm.elim
    | some s =>
      cases R with
      | ret b' e' =>
        cases b' with
        | none => exact hm.elim
        | some b' =>
          obtain ⟨he, ⟨⟨c, h1, h2, h3⟩, -⟩, -⟩ := hm
          simp only [Out.view, Shared.bytes, m.mem.arrIn _ _ _ h1, Option.map_some, h3, he]
      | panic => exact hm.elim
      | bad => exact hm.elim
      | nofuel => exact hm.elim
  | panic => cases R <;> first | rfl | exact hm.elim
  | bad => cases R <;> first | rfl | exact hm.elim

/-- C35: the same call in two executions has the same result. -/
theorem C35_history {g' : Nat} (hl : FormatContract W.fmt) (hr : Reached W g n C) (hh : AllHonest C) (hr' : Reached W g' n C') (hh' : AllHonest C')
    {T T' : Thread} (hT : T ∈ C.thr) (hT' : T' ∈ C'.thr) {out out' : Out} (ho : Returned T out) (ho' : Returned T' out') (hc : T.call = T'.call) :
    out.view C.sh = out'.view C'.sh := by
  rw [C31_result hl hr hh hT ho, C31_result hl hr' hh' hT' ho', hc]

/-- C35: the result depends on the value only, not on where it is in memory. -/
theorem C35_value {g' : Nat} (hl : FormatContract W.fmt) (hr : Reached W g n C) (hh : AllHonest C) (hr' : Reached W g' n C') (hh' : AllHonest C')
    {T T' : Thread} (hT : T ∈ C.thr) (hT' : T' ∈ C'.thr) {out out' : Out} (ho : Returned T out) (ho' : Returned T' out')
    (hord : T.call.order = T'.call.order) (hopts : T.call.opts = T'.call.opts) (hdst : T.call.dst = T'.call.dst)
    {M : MethV} (R : Ready W T.call.heap M) (R' : Ready W T'.call.heap M) {t : TId} {w w' : Addr} {v : Val}
    (hv : T.call.value = some (t, w)) (hv' : T'.call.value = some (t, w'))
    (hx : ReprE W.E T.call.heap.mem (some (t, w)) (.iface t v)) (hx' : ReprE W.E T'.call.heap.mem (some (t, w')) (.iface t v)) :
    out.view C.sh = out'.view C'.sh := by
  rw [C31_result hl hr hh hT ho, C31_result hl hr' hh' hT' ho']
  have key : ∀ o path dst, appendJSON (T.call.world W) (run (T.call.world W) T.call.heap o n) path (some (t, w)) dst =
      appendJSON (T'.call.world W) (run (T'.call.world W) T'.call.heap o n) path (some (t, w')) dst := by
    intro o path dst
    have e : T'.call.world W = T.call.world W := by simp only [Call.world, hord]
    have R1 : Ready (T.call.world W) T.call.heap M := ready_order R T.call.order
    have R2 : Ready (T.call.world W) T'.call.heap M := ready_order R' T.call.order
    rw [e, appendJSON_eq (run_agrees R1 n).2 hx, appendJSON_eq (run_agrees R2 n).2 hx']
  unfold Call.alone
  rw [hdst, hv, hv', hopts]
  cases T'.call.dst with
  | none =>
    simp only [marshalOpts, marshalJSON]
    cases prepare T'.call.opts with
    | error e => rfl
    | ok o => simp only [key]
  | some dst =>
    simp only [appendOpts, appendTop]
    cases prepare T'.call.opts with
    | error e => rfl
    | ok o => simp only [key]

/-! ## Recursive types: placeholders -/

/-- A goroutine waits for another one to finish an instruction. -/
def Waits (T : Thread) : Prop := ∃ p k, T.prog = .op (.wait p) k

/-- The goroutine has ended by a stack overflow. -/
def Crashed (T : Thread) : Prop := T.prog = .crash

/-- C32: whoever has published a placeholder does not wait itself: for each placeholder
that is not finished there is a goroutine which has not returned, does not wait, and can
do its next operation, unless the process has crashed. -/
theorem C32_generator (hl : FormatContract W.fmt) (hr : Reached W g n C) (hh : AllHonest C) {p : Nat} {s : Slot}
    (hs : C.sh.slots[p]? = some s) (hd : s.done = false) :
    ∃ j T, C.thr[j]? = some T ∧ (Crashed T ∨ ¬ Waits T ∧ ∃ D, OStep j C D) := by
  obtain ⟨K, hs', ws, m⟩ := reached_inv (contract_long hl) hr hh
  obtain ⟨j, x, hj⟩ := m.gen.ower p _ hs hd
  have hjlt : j < C.thr.length := by
    refine Classical.byContradiction fun h => ?_
    rw [(m.beyond j (by omega)).2] at hj; cases hj
  refine ⟨j, C.thr[j], List.getElem?_eq_getElem hjlt, ?_⟩
  by_cases hc : Crashed C.thr[j]
  · exact .inl hc
  · refine .inr ⟨?_, able_owing m (List.getElem?_eq_getElem hjlt) hj hc⟩
    rintro ⟨p', k, hp⟩
    have hm := m.meets j _ (List.getElem?_eq_getElem hjlt)
    rw [hp] at hm
    have := (hm K (.refl K)).1
    rw [this] at hj; cases hj

/-- C32: a goroutine which waits goes on with the finished instruction of the type it waits
for: what it runs is what generating the instruction alone gives. -/
theorem C32_waited (hl : FormatContract W.fmt) (hr : Reached W g n C) (hh : AllHonest C) {k : TId × Bool} {p : Nat}
    (hk : (k, .placeholder p) ∈ C.sh.structs) {f : Nat} {D : Shared} (hs : (Op.wait p).step C.sh D f) :
    ∃ K c, D = C.sh ∧ C.sh.closures[f]? = some c ∧ DenC W K k c := by
  obtain ⟨K, hs', ws, m⟩ := reached_inv (contract_long hl) hr hh
  obtain ⟨h1, h2⟩ := hs
  have hk' := m.gen.structs _ _ hk
  have hf := (m.gen.slots p _ k h2 hk').1 f rfl
  have hlt := (List.getElem?_eq_some_iff.mp hf).1
  rw [m.gen.closLen] at hlt
  exact ⟨K, _, h1, List.getElem?_eq_getElem hlt, m.gen.closures f k _ hf (List.getElem?_eq_getElem hlt)⟩

/-- C32: no deadlock. While some call has not returned, some call can do its next
operation, unless the process has crashed. -/
theorem C32_no_deadlock (hl : FormatContract W.fmt) (hr : Reached W g n C) (hh : AllHonest C) {T : Thread} (hT : T ∈ C.thr) (hn : ∀ out, ¬ Returned T out) :
    (∃ T' ∈ C.thr, Crashed T') ∨ ∃ j D, OStep j C D := by
  obtain ⟨K, hs, ws, m⟩ := reached_inv (contract_long hl) hr hh
  obtain ⟨i, hi, rfl⟩ := List.getElem_of_mem hT
  cases hp : C.thr[i].prog with
  | ret out => exact absurd hp (hn out)
  | crash => exact .inl ⟨_, hT, hp⟩
  | op o k =>
    by_cases hw : ∃ p, o = .wait p ∧ ∀ s, C.sh.slots[p]? = some s → s.done = false
    · obtain ⟨p, rfl, hd⟩ := hw
      have hm := m.meets i _ (List.getElem?_eq_getElem hi)
      rw [hp] at hm
      obtain ⟨-, key, hk, -⟩ := hm K (.refl K)
      have hlt := (List.getElem?_eq_some_iff.mp hk).1
      rw [m.gen.slotsLen] at hlt
      have hs1 := List.getElem?_eq_getElem hlt
      obtain ⟨j, T', hj, h | ⟨-, D, h⟩⟩ := C32_generator hl hr hh hs1 (hd _ hs1)
      · exact .inl ⟨T', List.mem_of_getElem? hj, h⟩
      · exact .inr ⟨j, D, h⟩
    · refine .inr ⟨i, able_done m (List.getElem?_eq_getElem hi) hp fun p hp' => ?_⟩
      apply Classical.byContradiction
      intro hno
      refine hw ⟨p, hp', fun s hs => ?_⟩
      cases hd : s.done with
      | false => rfl
      | true => exact absurd ⟨s, hs, hd⟩ hno

/-- C32: the calls in progress do finitely many operations, under every schedule. -/
theorem C32_finite (e : Nat → Conf) : ¬ ∀ k, ∃ i, OStep i (e k) (e (k + 1)) := by
  intro h
  have : ∀ l, Acc ChildL l → ∀ k, l ≠ (e k).thr.map (·.prog) := by
    intro l hl
    induction hl with
    | intro l _ ih =>
      rintro k rfl
      obtain ⟨i, hi⟩ := h k
      exact ih _ (ostep_childL hi) (k + 1) rfl
  exact this _ (childL_acc _) 0 rfl

/-- C32: under a fair scheduler every call returns, also while new calls are made without
end, if the stack never overflows. -/
theorem C32_fair {e : Nat → Conf} (hl : FormatContract W.fmt) (hf : FairRun W g n e) (al : Alive e) {k i : Nat} {T : Thread} (hi : (e k).thr[i]? = some T) :
    ∃ m T' out, k ≤ m ∧ (e m).thr[i]? = some T' ∧ T'.call = T.call ∧ Returned T' out ∧ out.view (e m).sh = some (T.call.alone W n) := by
  obtain ⟨m, T', out, h1, h2, h3⟩ := hf.returns (contract_long hl) al _ rfl hi
  have hc : ∀ m, k ≤ m → ∃ T', (e m).thr[i]? = some T' ∧ T'.call = T.call := by
    intro m hm
    induction m with
    | zero => have : k = 0 := by omega
              subst this; exact ⟨T, hi, rfl⟩
    | succ m ih =>
      by_cases hk : k = m + 1
      · subst hk; exact ⟨T, hi, rfl⟩
      · obtain ⟨T1, a1, a2⟩ := ih (by omega)
        have ht := hf.steps m
        generalize e (m + 1) = D at ht ⊢
        cases ht with
        | pause => exact ⟨T1, a1, a2⟩
        | step hs =>
          obtain ⟨T2, b1, b2, -⟩ := step_call hs a1
          exact ⟨T2, b1, b2.trans a2⟩
  obtain ⟨T1, a1, a2⟩ := hc m h1
  rw [h2] at a1; cases a1
  refine ⟨m, T', out, h1, h2, a2, h3, ?_⟩
  rw [C31_result hl (hf.reached m) (hf.honest m) (List.mem_of_getElem? h2) h3, a2]

/-! ## Memory -/

/-- The arrays an operation reads or writes. -/
def Touches : Op → Nat → Prop
  | .read s, a => a = s.arr
  | .scratch s, a => a = s.arr
  | .write s _, a => a = s.arr
  | _, _ => False

/-- The pooled objects an operation reads, writes or puts back. -/
def Uses : Op → Nat → Prop
  | .load id, a => a = id
  | .store id _, a => a = id
  | .put _ id, a => a = id
  | _, _ => False

/-- C34: a slice that was returned has an array of its own: no buffer in the pool has it,
and no slice returned by another call. -/
theorem C34_disjoint (hl : FormatContract W.fmt) (hr : Reached W g n C) (hh : AllHonest C) {i : Nat} {T : Thread} (hi : C.thr[i]? = some T) {s : Sl}
    {e : Option ApiErr} (ho : Returned T (.ret (some s) e)) :
    (∀ id ∈ C.sh.pool .buf, ∃ s', C.sh.objs[id]? = some (.buf s') ∧ s'.arr ≠ s.arr) ∧
    (∀ j T' s' e', j ≠ i → C.thr[j]? = some T' → Returned T' (.ret (some s') e') → s'.arr ≠ s.arr) ∧
    (∀ (j : Nat) (T' : Thread) (o : Op) k a, C.thr[j]? = some T' → T'.prog = .op o k → Touches o a → a ≠ s.arr) := by
  obtain ⟨K, hs, ws, m⟩ := reached_inv (contract_long hl) hr hh
  have own : ∀ j T' s' e', C.thr[j]? = some T' → Returned T' (.ret (some s') e') → (hs (some j)).arr s'.arr ≠ none := by
    intro j T' s' e' hj ho'
    have hm := m.meets j _ hj
    unfold Returned at ho'
    rw [ho'] at hm
    obtain ⟨-, hm⟩ := hm K (.refl K)
    generalize T'.call.alone W n = R at hm
    cases R with
    | ret b' e' =>
      cases b' with
      | none => exact hm.elim
      | some b' => obtain ⟨-, ⟨⟨c, h1, -, -⟩, -⟩, -⟩ := hm; rw [h1]; simp
    | panic => exact hm.elim
    | bad => exact hm.elim
    | nofuel => exact hm.elim
  have hi' := own i T s e hi ho
  refine ⟨fun id hid => ?_, fun j T' s' e' hj hT' ho' he => ?_, fun j T' o k a hj hp ht he => ?_⟩
  · obtain ⟨v, hv, s', c, rfl, hc⟩ := m.mem.pooled .buf id hid
    refine ⟨s', m.mem.objIn _ _ _ hv, fun he => ?_⟩
    have := m.mem.arrOne none (some i) s.arr (by rw [← he, hc]; simp) hi'
    cases this
  · have := m.mem.arrOne (some j) (some i) s.arr (by rw [← he]; exact own j T' s' e' hT' ho') hi'
    cases this; exact hj rfl
  · have hm := m.meets j _ hj
    rw [hp] at hm
    have hg := hm K (.refl K)
    subst he
    have hne : j = i → False := by
      rintro rfl
      rw [hi] at hj; cases hj
      unfold Returned at ho
      rw [hp] at ho; cases ho
    cases o with
    | read s' =>
      obtain ⟨-, c, h1, -, -⟩ := hg
      have := m.mem.arrOne (some j) (some i) s.arr (by rw [show s.arr = s'.arr from ht, h1]; simp) hi'
      cases this; exact hne rfl
    | scratch s' =>
      obtain ⟨-, -, c, h1, -, -⟩ := hg
      have := m.mem.arrOne (some j) (some i) s.arr (by rw [show s.arr = s'.arr from ht, h1]; simp) hi'
      cases this; exact hne rfl
    | write s' b =>
      obtain ⟨c, h1, -, -⟩ := hg
      have := m.mem.arrOne (some j) (some i) s.arr (by rw [show s.arr = s'.arr from ht, h1]; simp) hi'
      cases this; exact hne rfl
    | _ => exact ht

/-- C34: a pooled object is in the pool or held by one call: the objects taken from the
pools are different from each other and from those in the pools; a call uses only those
it has taken; when it returns it has put all of them back. -/
theorem C34_held (hl : FormatContract W.fmt) (hr : Reached W g n C) (hh : AllHonest C) {i : Nat} {T : Thread} (hi : C.thr[i]? = some T) :
    T.held.Nodup ∧ (∀ P, (C.sh.pool P).Nodup) ∧
    (∀ j T', j ≠ i → C.thr[j]? = some T' → ∀ id ∈ T'.held, id ∉ T.held) ∧
    (∀ P, ∀ id ∈ C.sh.pool P, id ∉ T.held) ∧
    (∀ P Q, P ≠ Q → ∀ id ∈ C.sh.pool P, id ∉ C.sh.pool Q) ∧
    (∀ o k id, T.prog = .op o k → Uses o id → id ∈ T.held) ∧
    (∀ b e, Returned T (.ret b e) → T.held = []) := by
  obtain ⟨K, hs, ws, m⟩ := reached_inv (contract_long hl) hr hh
  have hd := m.held i T hi
  refine ⟨hd.1, m.mem.nodup, fun j T' hj hT' id h1 h2 => ?_, fun P id h1 h2 => ?_, fun P Q hPQ id h1 h2 => ?_, fun o k id hp hu => ?_, fun b e ho => ?_⟩
  · have := m.mem.objOne (some j) (some i) id (((m.held j T' hT').2 id).mp h1) ((hd.2 id).mp h2)
    cases this; exact hj rfl
  · obtain ⟨v, hv, -⟩ := m.mem.pooled P id h1
    have := m.mem.objOne none (some i) id (by rw [hv]; simp) ((hd.2 id).mp h2)
    cases this
  · obtain ⟨v, hv, hP⟩ := m.mem.pooled P id h1
    obtain ⟨v', hv', hQ⟩ := m.mem.pooled Q id h2
    rw [hv] at hv'; cases hv'
    cases P <;> cases Q <;> first | exact hPQ rfl | skip
    all_goals simp only [InPool] at hP hQ
    · obtain ⟨s, c, rfl, -⟩ := hP; cases hQ
    · obtain ⟨s, c, rfl, -⟩ := hP; obtain ⟨l, hl⟩ := hQ; cases hl
    · obtain ⟨s, c, rfl, -⟩ := hQ; cases hP
    · obtain ⟨l, hl⟩ := hQ; rw [hP] at hl; cases hl
    · obtain ⟨s, c, rfl, -⟩ := hQ; obtain ⟨l, hl⟩ := hP; cases hl
    · obtain ⟨l, hl⟩ := hP; rw [hQ] at hl; cases hl
  · have hm := m.meets i _ hi
    rw [hp] at hm
    have hg := hm K (.refl K)
    rw [hd.2 id]
    cases o with
    | load id' => obtain ⟨v, h1, -⟩ := hg; rw [show id = id' from hu, h1]; simp
    | store id' v => rw [show id = id' from hu]; exact hg.1
    | put P id' =>
      rw [show id = id' from hu]
      cases P with
      | buf => obtain ⟨s, h1, -, -⟩ := hg; rw [h1]; simp
      | elems => rw [hg.1]; simp
      | iter => obtain ⟨l, h1, -⟩ := hg; rw [h1]; simp
    | _ => exact hu.elim
  · have hm := m.meets i _ hi
    unfold Returned at ho
    rw [ho] at hm
    obtain ⟨-, hm⟩ := hm K (.refl K)
    have hz : ∀ id, (hs (some i)).obj id = none := by
      generalize T.call.alone W n = R at hm
      cases b <;> rcases R with ⟨_ | _, _⟩ | _ | _ | _ <;> first | exact hm.elim | exact hm.2 | exact hm.2.2
    rw [List.eq_nil_iff_forall_not_mem]
    exact fun id hid => ((hd.2 id).mp hid) (hz id)

theorem honest_steps (hst : CSteps W g n C C') (hh : AllHonest C') : AllHonest C := by
  induction hst with
  | refl => exact hh
  | step h1 h2 ih => exact ih (honest_before h2 hh)

/-- C34: nothing done after a call has returned changes the bytes it returned. -/
theorem C34_stable (hl : FormatContract W.fmt) (hr : Reached W g n C) (hst : CSteps W g n C C') (hh : AllHonest C') {i : Nat} {T : Thread} {out : Out}
    (hi : C.thr[i]? = some T) (ho : Returned T out) : C'.thr[i]? = some T ∧ out.view C'.sh = out.view C.sh := by
  obtain ⟨T', h1, h2, -, h3⟩ := steps_call hst hi
  have := h3 out ho
  subst this
  have hr' : Reached W g n C' := by
    clear h1 h2 h3 hh
    induction hst with
    | refl => exact hr
    | step _ h ih => exact .step ih h
  refine ⟨h1, ?_⟩
  rw [C31_result hl hr' hh (List.mem_of_getElem? h1) ho, C31_result hl hr (honest_steps hst hh) (List.mem_of_getElem? hi) ho]

end Jettison.Props
