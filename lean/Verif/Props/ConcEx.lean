import Verif.Props.Concurrent

/-!
# Concrete executions

A scheduler that can be run, and two goroutines which use a recursive type for the first
time at the same time.
-/

namespace Jettison.Props
open Jettison Jettison.Spec Jettison.Model Jettison.Proofs

/-- An array big enough for what is written. -/
def tryWrite (σ : Shared) (s : Sl) (b : Bytes) (c : Bytes) : Shared × Sl :=
  if b.length ≤ c.length then ({ σ with arrs := σ.arrs.set s.arr (b ++ c.drop b.length) }, ⟨s.arr, b.length⟩)
  else ({ σ with arrs := σ.arrs ++ [b ++ [0, 0, 0]] }, ⟨σ.arrs.length, b.length⟩)

/-- What is made for an empty pool. -/
def tryFresh (σ : Shared) : PoolK → Shared
  | .buf => { σ with objs := σ.objs ++ [.buf ⟨σ.arrs.length, 0⟩], arrs := σ.arrs ++ [[1, 2, 3, 4]] }
  | .elems => { σ with objs := σ.objs ++ [.elems []] }
  | .iter => { σ with objs := σ.objs ++ [.iter []] }

/-- One possible outcome of an operation; `none` if it has none. -/
def tryOp : (o : Op) → Shared → Option (Shared × o.Res)
  | .loadInstr t, σ => some (σ, assoc t σ.cache)
  | .loadCache, σ => some (σ, σ.cache)
  | .storeCache m, σ => some ({ σ with cache := m }, ())
  | .loadStruct k, σ => some (σ, assoc k σ.structs)
  | .loadOrStore k, σ =>
    match assoc k σ.structs with
    | some r => some (σ, (r, true))
    | none => some ({ σ with structs := (k, .placeholder σ.slots.length) :: σ.structs, slots := σ.slots ++ [⟨none, false⟩] }, (.placeholder σ.slots.length, false))
  | .newClosure c, σ => some ({ σ with closures := σ.closures ++ [c] }, σ.closures.length)
  | .setIns c f, σ => (σ.slots[c]?).map fun s => ({ σ with slots := σ.slots.set c { s with ins := some f } }, ())
  | .done c, σ => (σ.slots[c]?).map fun s => ({ σ with slots := σ.slots.set c { s with done := true } }, ())
  | .storeStruct k f, σ => some ({ σ with structs := (k, .closure f) :: σ.structs }, ())
  | .wait c, σ => match σ.slots[c]? with | some ⟨some x, true⟩ => some (σ, x) | _ => none
  | .captured f, σ => (σ.closures[f]?).map fun x => (σ, x)
  | .loadFields t, σ => some (σ, assoc t σ.fields)
  | .addFields t l, σ => match assoc t σ.fields with | some l' => some (σ, l') | none => some ({ σ with fields := (t, l) :: σ.fields }, l)
  | .loadEmpty t, σ => some (σ, assoc t σ.empties)
  | .addEmpty t f, σ => match assoc t σ.empties with | some f' => some (σ, f') | none => some ({ σ with empties := (t, f) :: σ.empties }, f)
  | .read s, σ => match σ.arrs[s.arr]? with | some c => if s.hi ≤ c.length then some (σ, slice c s.lo s.hi) else none | none => none
  | .scratch s, σ => match σ.arrs[s.arr]? with | some c => if s.len ≤ c.length then some (σ, c.take s.len) else none | none => none
  | .back _ _ _ _, σ => some (σ, ())
  | .write s b, σ => match σ.arrs[s.arr]? with | some c => some (tryWrite σ s b c) | none => none
  | .alloc b, σ => some ({ σ with arrs := σ.arrs ++ [b] }, ⟨σ.arrs.length, b.length⟩)
  | .get P, σ =>
    match σ.pool P with
    | id :: _ => some ({ σ with pool := fun Q => if Q = P then (σ.pool P).erase id else σ.pool Q }, id)
    | [] => some (tryFresh σ P, σ.objs.length)
  | .load id, σ => (σ.objs[id]?).map fun x => (σ, x)
  | .store id v, σ => if id < σ.objs.length then some ({ σ with objs := σ.objs.set id v }, ()) else none
  | .put P id, σ => some ({ σ with pool := fun Q => if Q = P then id :: σ.pool P else σ.pool Q }, ())

theorem tryOp_step {o : Op} {σ σ' : Shared} {x : o.Res} (h : tryOp o σ = some (σ', x)) : o.step σ σ' x := by
  cases o with
  | loadInstr t => cases h; exact ⟨rfl, rfl⟩
  | loadCache => cases h; exact ⟨rfl, rfl⟩
  | storeCache m => cases h; rfl
  | loadStruct k => cases h; exact ⟨rfl, rfl⟩
  | loadOrStore k =>
    simp only [tryOp] at h
    simp only [Op.step]
    cases ha : assoc k σ.structs with
    | some r => rw [ha] at h; cases h; exact ⟨rfl, rfl⟩
    | none => rw [ha] at h; cases h; exact ⟨rfl, rfl⟩
  | newClosure c => cases h; exact ⟨rfl, rfl⟩
  | setIns c f =>
    simp only [tryOp, Option.map_eq_some_iff] at h
    obtain ⟨s, hs, h⟩ := h
    cases h; exact ⟨s, hs, rfl⟩
  | done c =>
    simp only [tryOp, Option.map_eq_some_iff] at h
    obtain ⟨s, hs, h⟩ := h
    cases h; exact ⟨s, hs, rfl⟩
  | storeStruct k f => cases h; rfl
  | wait c =>
    simp only [tryOp] at h
    split at h
    · next hs => cases h; exact ⟨rfl, hs⟩
    · cases h
  | captured f =>
    simp only [tryOp] at h
    cases hs : σ.closures[f]? with
    | none => rw [hs] at h; cases h
    | some s => rw [hs] at h; cases h; exact ⟨rfl, hs⟩
  | loadFields t => cases h; exact ⟨rfl, rfl⟩
  | addFields t l =>
    simp only [tryOp] at h
    simp only [Op.step]
    cases ha : assoc t σ.fields with
    | some r => rw [ha] at h; cases h; exact ⟨rfl, rfl⟩
    | none => rw [ha] at h; cases h; exact ⟨rfl, rfl⟩
  | loadEmpty t => cases h; exact ⟨rfl, rfl⟩
  | addEmpty t l =>
    simp only [tryOp] at h
    simp only [Op.step]
    cases ha : assoc t σ.empties with
    | some r => rw [ha] at h; cases h; exact ⟨rfl, rfl⟩
    | none => rw [ha] at h; cases h; exact ⟨rfl, rfl⟩
  | read s =>
    simp only [tryOp] at h
    split at h
    · next c hc =>
      split at h
      · next hl => cases h; exact ⟨rfl, c, hc, hl, rfl⟩
      · cases h
    · cases h
  | scratch s =>
    simp only [tryOp] at h
    split at h
    · next c hc =>
      split at h
      · next hl =>
        cases h
        have : σ.arrs.set s.arr c = σ.arrs := by
          obtain ⟨hlt, rfl⟩ := List.getElem?_eq_some_iff.mp hc
          exact List.set_getElem_self _
        exact ⟨c, c, hc, hl, rfl, rfl, by rw [this], rfl⟩
      · cases h
    · cases h
  | back n c l out => cases h; rfl
  | write s b =>
    simp only [tryOp] at h
    split at h
    · next c hc =>
      simp only [Option.some.injEq, tryWrite] at h
      split at h
      · next hl =>
        cases h
        exact ⟨c, hc, .inl ⟨b ++ c.drop b.length, by simp; omega, hl, by simp, rfl, rfl⟩⟩
      · cases h
        refine ⟨c, hc, .inr ⟨c, b ++ [0, 0, 0], rfl, rfl, by simp, by simp, rfl, ?_⟩⟩
        have : σ.arrs.set s.arr c = σ.arrs := by
          obtain ⟨hlt, rfl⟩ := List.getElem?_eq_some_iff.mp hc
          exact List.set_getElem_self _
        rw [this]
    · cases h
  | alloc b => cases h; exact ⟨[], by simp, rfl⟩
  | get P =>
    simp only [tryOp] at h
    split at h
    · next id t hp => cases h; exact .inl ⟨by rw [hp]; exact List.mem_cons_self, rfl⟩
    · cases h
      cases P with
      | buf => exact .inr ⟨_, _, .buf [1, 2, 3, 4], rfl, rfl⟩
      | elems => exact .inr ⟨_, _, .elems, rfl, rfl⟩
      | iter => exact .inr ⟨_, _, .iter, rfl, rfl⟩
  | load id =>
    simp only [tryOp] at h
    cases hs : σ.objs[id]? with
    | none => rw [hs] at h; cases h
    | some s => rw [hs] at h; cases h; exact ⟨rfl, hs⟩
  | store id v =>
    simp only [tryOp] at h
    split at h
    · next hl => cases h; exact ⟨hl, rfl⟩
    · cases h
  | put P id => cases h; rfl

/-- What a goroutine is after its next operation, with the shared state. -/
def tryProg (T : Thread) (σ : Shared) : Option (Shared × Thread) :=
  match T.prog with
  | .op o k => (tryOp o σ).map fun r => (r.1, ⟨T.call, k r.2, heldAfter o r.2 T.held, T.inner⟩)
  | _ => none

/-- The goroutine does its next operation if it can. -/
def tryStep (i : Nat) (C : Conf) : Conf :=
  match C.thr[i]? with
  | some T => match tryProg T C.sh with | some r => ⟨r.1, C.thr.set i r.2⟩ | none => C
  | none => C

theorem tryStep_ok (W : World) (g n i : Nat) (C : Conf) : Tick W g n C (tryStep i C) := by
  unfold tryStep
  cases hi : C.thr[i]? with
  | none => exact .pause
  | some T =>
    simp only
    cases hp : tryProg T C.sh with
    | none => exact .pause
    | some r =>
      obtain ⟨c, p, held, inner⟩ := T
      unfold tryProg at hp
      cases p with
      | ret a => cases hp
      | crash => cases hp
      | op o k =>
        simp only [Option.map_eq_some_iff] at hp
        obtain ⟨⟨σ', x⟩, h1, rfl⟩ := hp
        exact .step (.op (.mk hi (tryOp_step h1)))

/-- The run of a list of choices. -/
def trySteps : List Nat → Conf → Conf
  | [], C => C
  | i :: l, C => trySteps l (tryStep i C)

theorem trySteps_ok {W : World} {g n : Nat} : ∀ (l : List Nat) {C : Conf}, Reached W g n C → Reached W g n (trySteps l C)
  | [], _, h => h
  | i :: l, C, h => by
    refine trySteps_ok l ?_
    have := tryStep_ok W g n i C
    generalize tryStep i C = D at this
    cases this with
    | pause => exact h
    | step hs => exact .step h hs

theorem trySteps_append : ∀ (l l' : List Nat) (C : Conf), trySteps (l ++ l') C = trySteps l' (trySteps l C)
  | [], _, _ => rfl
  | i :: l, l', C => trySteps_append l l' (tryStep i C)

/-! ## Two first uses of a recursive type -/

/-- A list of two nodes at 500, and the `Full` and `Item` of `shopCells`. -/
def nodeCells : List (Addr × Cell) :=
  [(500, .int (.int 1)), (508, .word 520), (520, .int (.int 2)), (528, .word 0)] ++ shopCells

/-- `Marshal` of the first node. -/
def callA : Call := ⟨shopH nodeCells, shopW.order, some (64, 500), [], none⟩
/-- `Append` of the pointer to the first node. -/
def callB : Call := ⟨shopH nodeCells, shopW.order, some (129, 500), [], some (b! "x=")⟩
/-- `Marshal` of the `Full`, which has a map. -/
def callD : Call := ⟨shopH nodeCells, shopW.order, some (42, 100), [], none⟩

/-- The three calls are made. -/
def conf3 : Conf :=
  ⟨{ Shared.init with arrs := [b! "x=" ++ [9]] },
    [⟨callA, callA.marshal shopW 20 9, [], []⟩, ⟨callB, callB.append shopW 20 9 ⟨0, 2⟩, [], []⟩, ⟨callD, callD.marshal shopW 20 9, [], []⟩]⟩

theorem conf3_reached : Reached shopW 20 9 conf3 := by
  refine .step (.step (.step .refl (.marshal (c := callA) rfl)) (.append (c := callB) (dst := b! "x=") [9] rfl)) (.marshal (c := callD) rfl)

theorem honest_try (l : List Nat) (C : Conf) (h : AllHonest C) : AllHonest (trySteps l C) := by
  induction l generalizing C with
  | nil => exact h
  | cons i l ih =>
    refine ih _ ?_
    unfold tryStep
    cases hi : C.thr[i]? with
    | none => exact h
    | some T =>
      simp only
      cases hp : tryProg T C.sh with
      | none => exact h
      | some r =>
        intro T' hT'
        have hr : r.2.call = T.call ∧ r.2.inner = T.inner := by
          unfold tryProg at hp
          split at hp
          · simp only [Option.map_eq_some_iff] at hp
            obtain ⟨q, -, rfl⟩ := hp
            exact ⟨rfl, rfl⟩
          · cases hp
        rcases List.mem_or_eq_of_mem_set hT' with h1 | rfl
        · exact h T' h1
        · rw [hr.1, hr.2]; exact h T (List.mem_of_getElem? hi)

theorem conf3_honest (l : List Nat) : AllHonest (trySteps l conf3) := by
  refine honest_try l _ fun T hT => ?_
  simp only [conf3, List.mem_cons, List.not_mem_nil, or_false] at hT
  rcases hT with rfl | rfl | rfl <;> exact List.forall_mem_singleton.mpr (shop_honest nodeCells)

/-- The methods of the run make no calls. -/
def Plain (C : Conf) : Prop := ∀ T ∈ C.thr, T.inner = []

theorem plain_try (l : List Nat) (C : Conf) (h : Plain C) : Plain (trySteps l C) := by
  induction l generalizing C with
  | nil => exact h
  | cons i l ih =>
    refine ih _ ?_
    unfold tryStep
    cases hi : C.thr[i]? with
    | none => exact h
    | some T =>
      simp only
      cases hp : tryProg T C.sh with
      | none => exact h
      | some r =>
        intro T' hT'
        have hr : r.2.inner = T.inner := by
          unfold tryProg at hp
          split at hp
          · simp only [Option.map_eq_some_iff] at hp
            obtain ⟨q, -, rfl⟩ := hp
            rfl
          · cases hp
        rcases List.mem_or_eq_of_mem_set hT' with h1 | rfl
        · exact h T' h1
        · rw [hr]; exact h T (List.mem_of_getElem? hi)

theorem plain_finite {e : Nat → Conf} (h : ∀ k, Plain (e k)) : ∀ i : Nat, ∃ B, ∀ k (T : Thread), (e k).thr[i]? = some T → T.inner.length ≤ B :=
  fun _ => ⟨0, fun k T hT => by rw [h k T (List.mem_of_getElem? hT)]; exact Nat.le_refl _⟩

/-- What the calls have returned so far. -/
def results (C : Conf) : List (Option Ret) :=
  C.thr.map fun T => match T.prog with | .ret out => out.view C.sh | _ => none

/-- Who waits. -/
def waiting (C : Conf) : List Bool :=
  C.thr.map fun T => match T.prog with | .op (.wait _) _ => true | _ => false

def rounds (n : Nat) : List Nat := (List.replicate n [0, 1, 2]).flatten

/-- The first goroutine publishes its placeholder, the second one runs until it waits, then all take turns. -/
def plan : List Nat := List.replicate 10 0 ++ List.replicate 6 1 ++ rounds 200

/-- After `k` choices. -/
def demo (k : Nat) : Conf := trySteps (plan.take k) conf3

theorem demo_reached (k : Nat) : Reached shopW 20 9 (demo k) := trySteps_ok _ conf3_reached

/-- The second goroutine waits for the first. -/
theorem demo_waits : waiting (demo 16) = [false, true, false] := by decide +kernel

/-- All return. -/
theorem demo_results : results (demo 616) =
    [some (.ret (some (b! "{\"N\":1,\"Next\":{\"N\":2,\"Next\":null}}")) none),
     some (.ret (some (b! "x={\"N\":1,\"Next\":{\"N\":2,\"Next\":null}}")) none),
     some (.ret (some (b! "{\"id\":9,\"when\":1000000000,\"Name\":\"base\",\"L\":[[1,2],[1,2]],\"M\":{\"k\":4},\"A\":[1,2,3],\"Any\":6,\"P\":{\"N\":5}}")) none)] := by
  decide +kernel

theorem demo_end {k : Nat} (hk : 616 ≤ k) : demo k = demo 616 := by
  have : plan.length = 616 := by decide +kernel
  unfold demo
  rw [List.take_of_length_le (by omega), List.take_of_length_le (by omega)]

theorem demo_tick (k : Nat) : Tick shopW 20 9 (demo k) (demo (k + 1)) := by
  unfold demo
  by_cases hk : k < plan.length
  · rw [List.take_add_one, trySteps_append, List.getElem?_eq_getElem hk]
    exact tryStep_ok _ _ _ _ _
  · rw [List.take_of_length_le (by omega), List.take_of_length_le (by omega)]
    exact .pause

theorem demo_returned {T : Thread} (hT : T ∈ (demo 616).thr) : ∃ out, T.prog = .ret out := by
  have h : (demo 616).thr.all (fun T => match T.prog with | .ret _ => true | _ => false) = true := by decide +kernel
  have := List.all_eq_true.mp h T hT
  revert this
  cases T.prog with
  | ret out => exact fun _ => ⟨out, rfl⟩
  | crash => intro h; cases h
  | op o k => intro h; cases h

theorem crash_stays {W : World} {g n i : Nat} {C C' : Conf} {T : Thread} (hst : Tick W g n C C') (hi : C.thr[i]? = some T) (hp : T.prog = .crash) :
    C'.thr[i]? = some T := by
  rcases tick_thread hst hi with h | ⟨T', h, hc⟩
  · exact h
  · exact absurd hc (by
      unfold Goes
      rw [hp]
      rintro (⟨hc, -⟩ | ⟨⟨s, k, h⟩, -⟩)
      · generalize T'.prog = q at hc; cases hc
      · cases h)

/-- The hypotheses of the theorems are met. -/
theorem demo_fair : FairRun shopW 20 9 demo where
  start := demo_reached 0
  steps := demo_tick
  honest k := conf3_honest _
  fair i k h := by
    exfalso
    obtain ⟨C', hs⟩ := h (max k 616) (Nat.le_max_left _ _)
    rw [demo_end (Nat.le_max_right _ _)] at hs
    obtain ⟨hi, -⟩ := hs
    obtain ⟨out, ho⟩ := demo_returned (List.mem_of_getElem? hi)
    cases ho
  finite := plain_finite fun k => plain_try _ _ fun T hT => by
    simp only [conf3, List.mem_cons, List.not_mem_nil, or_false] at hT
    rcases hT with rfl | rfl | rfl <;> rfl

theorem demo_alive : Alive demo := by
    intro k T hT hc
    obtain ⟨i, hi, rfl⟩ := List.getElem_of_mem hT
    have : ∀ m, (demo (k + m)).thr[i]? = some (demo k).thr[i] := by
      intro m
      induction m with
      | zero => exact List.getElem?_eq_getElem hi
      | succ m ih => exact crash_stays (demo_tick (k + m)) ih hc
    have h := this 616
    rw [demo_end (by omega)] at h
    obtain ⟨out, ho⟩ := demo_returned (List.mem_of_getElem? h)
    rw [hc] at ho; cases ho

example : ∃ (i : Nat) (T : Thread) (p : Nat) (k : Nat → Prog Out), (demo 16).thr[i]? = some T ∧ T.prog = .op (.wait p) k ∧ (∀ out, ¬ Returned T out) ∧
    ∃ s, (demo 16).sh.slots[p]? = some s ∧ s.done = false := by
  have h : ((demo 16).thr[1]?.map fun T => match T.prog with
      | .op (.wait p) _ => (match (demo 16).sh.slots[p]? with | some s => !s.done | none => false) | _ => false) = some true := by decide +kernel
  cases hT : (demo 16).thr[1]? with
  | none => rw [hT] at h; cases h
  | some T =>
    rw [hT] at h
    simp only [Option.map_some, Option.some.injEq] at h
    refine ⟨1, T, ?_⟩
    cases hp : T.prog with
    | ret out => rw [hp] at h; cases h
    | crash => rw [hp] at h; cases h
    | op o k =>
      rw [hp] at h
      cases o with
      | wait p =>
        simp only at h
        split at h
        · next s hs => exact ⟨p, k, hT, rfl, fun out ho => by (unfold Returned at ho; rw [hp] at ho; cases ho), s, hs, by simpa using h⟩
        · cases h
      | _ => cases h

/-- The first two goroutines have returned while the third holds three objects, one of which the first has used. -/
example : ((demo 200).thr.map (·.held), (results (demo 200)).map Option.isSome) = ([[], [], [0, 2, 1]], [true, true, false]) := by decide +kernel

/-- All objects are back. -/
example : ((demo 616).thr.map (·.held), (demo 616).sh.pool .buf, (demo 616).sh.pool .elems, (demo 616).sh.pool .iter) = ([[], [], []], [1, 0], [3], [2]) := by
  decide +kernel

/-- The theorems apply. -/
example {T : Thread} (hT : T ∈ (demo 616).thr) : ∃ out, Returned T out ∧ out.view (demo 616).sh = some (T.call.alone shopW 9) := by
  obtain ⟨out, ho⟩ := demo_returned hT
  exact ⟨out, ho, C31_result toyFmt_contract (demo_reached _) (conf3_honest _) hT ho⟩

end Jettison.Props
