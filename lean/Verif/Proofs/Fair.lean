import Verif.Proofs.Conf

/-!
# Every call comes to an end
-/

namespace Jettison.Proofs
open Jettison Jettison.Model Jettison.Spec

/-- What can be left of a program after its next operation. -/
inductive Child : Prog Out → Prog Out → Prop
  | mk {o : Op} {k : o.Res → Prog Out} (x : o.Res) : Child (k x) (.op o k)

theorem child_acc : ∀ p : Prog Out, Acc Child p
  | .ret _ => ⟨_, fun q h => by (cases h)⟩
  | .crash => ⟨_, fun q h => by (cases h)⟩
  | .op o k => ⟨_, fun q h => by cases h with | mk x => exact child_acc (k x)⟩

/-- One of the programs does an operation. -/
inductive ChildL : List (Prog Out) → List (Prog Out) → Prop
  | head {q p l} : Child q p → ChildL (q :: l) (p :: l)
  | tail {p l l'} : ChildL l' l → ChildL (p :: l') (p :: l)

theorem childL_acc (l : List (Prog Out)) : Acc ChildL l := by
  induction l with
  | nil => exact ⟨_, fun q h => by (cases h)⟩
  | cons p l ih =>
    have hp := child_acc p
    induction hp generalizing l with
    | intro p _ ihp =>
      induction ih with
      | intro l hl ihl =>
        refine ⟨_, fun q h => ?_⟩
        cases h with
        | head hc => exact ihp _ hc l ⟨_, hl⟩
        | tail ht => exact ihl _ ht

theorem childL_set : ∀ {l : List (Prog Out)} {i : Nat} {q p : Prog Out}, l[i]? = some p → Child q p → ChildL (l.set i q) l
  | p' :: l, 0, q, p, h, hc => by simp at h; subst h; exact .head hc
  | p' :: l, i + 1, q, p, h, hc => by simp at h; exact .tail (childL_set h hc)

theorem ostep_childL {i : Nat} {C C' : Conf} (h : OStep i C C') : ChildL (C'.thr.map (·.prog)) (C.thr.map (·.prog)) := by
  obtain ⟨hi, ho⟩ := h
  rename_i c o k held inner σ x
  simp only [List.map_set]
  exact childL_set (by rw [List.getElem?_map, hi]; rfl) (.mk x)

variable {W : World} {g n : Nat} {C C' : Conf} {K : Known} {hs : Parts} {ws : Nat → Owed}

/-- A finished placeholder stays finished. -/
theorem step_done (hst : CStep W g n C C') {p : Nat} {s : Slot} (h : C.sh.slots[p]? = some s) (hd : s.done = true) :
    ∃ s', C'.sh.slots[p]? = some s' ∧ s'.done = true := by
  cases hst with
  | marshal _ => exact ⟨s, h, hd⟩
  | append _ _ => exact ⟨s, h, hd⟩
  | drop _ => exact ⟨s, h, hd⟩
  | method hm => cases hm <;> exact ⟨s, h, hd⟩
  | op hst =>
    obtain ⟨hi, ho⟩ := hst
    rename_i i c o k held inner σ x
    have same : σ.slots = C.sh.slots → ∃ s', σ.slots[p]? = some s' ∧ s'.done = true := fun e => ⟨s, by rw [e]; exact h, hd⟩
    have setq : ∀ q s0 s1, C.sh.slots[q]? = some s0 → (s0.done = true → s1.done = true) → σ.slots = C.sh.slots.set q s1 → ∃ s', σ.slots[p]? = some s' ∧ s'.done = true := by
      intro q s0 s1 hq hs e
      have hlt := (List.getElem?_eq_some_iff.mp hq).1
      rw [e]
      by_cases e' : p = q
      · subst e'
        rw [h] at hq; cases hq
        exact ⟨s1, by simp [hlt], hs hd⟩
      · rw [List.getElem?_set_ne (Ne.symm e')]
        exact ⟨s, h, hd⟩
    cases o with
    | loadInstr t => exact same (by rw [ho.1])
    | loadCache => exact same (by rw [ho.1])
    | storeCache m => cases ho; exact same rfl
    | loadStruct t => exact same (by rw [ho.1])
    | loadOrStore t =>
      simp only [Op.step] at ho
      cases ha : assoc t C.sh.structs with
      | some r => rw [ha] at ho; exact same (by rw [ho.1])
      | none => rw [ha] at ho; exact ⟨s, by rw [ho.1]; exact prefix_get ⟨_, rfl⟩ h, hd⟩
    | newClosure c => exact same (by rw [ho.1])
    | setIns c f => obtain ⟨s0, h0, rfl⟩ := ho; exact setq c s0 { s0 with ins := some f } h0 (fun h => h) rfl
    | done c => obtain ⟨s0, h0, rfl⟩ := ho; exact setq c s0 _ h0 (fun _ => rfl) rfl
    | storeStruct t f => cases ho; exact same rfl
    | wait c => exact same (by rw [ho.1])
    | captured f => exact same (by rw [ho.1])
    | loadFields t => exact same (by rw [ho.1])
    | addFields t l =>
      simp only [Op.step] at ho
      cases ha : assoc t C.sh.fields with
      | some r => rw [ha] at ho; exact same (by rw [ho.1])
      | none => rw [ha] at ho; exact same (by rw [ho.1])
    | loadEmpty t => exact same (by rw [ho.1])
    | addEmpty t l =>
      simp only [Op.step] at ho
      cases ha : assoc t C.sh.empties with
      | some r => rw [ha] at ho; exact same (by rw [ho.1])
      | none => rw [ha] at ho; exact same (by rw [ho.1])
    | read s' => exact same (by rw [ho.1])
    | scratch s' => obtain ⟨c, c', -, -, -, -, rfl, -⟩ := ho; exact same rfl
    | back n c l out => cases ho; exact same rfl
    | write s' b =>
      obtain ⟨c, -, ⟨c', -, -, -, -, rfl⟩ | ⟨c1, c', -, -, -, -, -, rfl⟩⟩ := ho <;> exact same rfl
    | alloc b => obtain ⟨j, rfl, -⟩ := ho; exact same rfl
    | get P => obtain ⟨-, rfl⟩ | ⟨v, a, -, rfl, -⟩ := ho <;> exact same rfl
    | load id => exact same (by rw [ho.1])
    | store id v => exact same (by rw [ho.2])
    | put P id => cases ho; exact same rfl

/-- What can become of a goroutine in a step: it does an operation, or a method it is calling makes a call. -/
def Goes (T T' : Thread) : Prop := (Child T'.prog T.prog ∧ T'.inner = T.inner) ∨ ((∃ s k, T.prog = .op (.scratch s) k) ∧ ∃ c, T'.inner = c :: T.inner)

theorem set_thread {σ : Shared} {i j : Nat} {T T0 T1 : Thread} (hi : C.thr[i]? = some T) (hj : C.thr[j]? = some T0) (h : Goes T0 T1) :
    (⟨σ, C.thr.set j T1⟩ : Conf).thr[i]? = some T ∨ ∃ T', (⟨σ, C.thr.set j T1⟩ : Conf).thr[i]? = some T' ∧ Goes T T' := by
  have hlt := (List.getElem?_eq_some_iff.mp hj).1
  by_cases e : i = j
  · subst e
    rw [hj] at hi; cases hi
    exact .inr ⟨T1, by simp [hlt], h⟩
  · exact .inl (by simp only; rw [List.getElem?_set_ne (Ne.symm e)]; exact hi)

/-- A goroutine stays as it is until it does an operation or a method it is calling makes a call. -/
theorem step_thread (hst : CStep W g n C C') {i : Nat} {T : Thread} (hi : C.thr[i]? = some T) :
    C'.thr[i]? = some T ∨ ∃ T', C'.thr[i]? = some T' ∧ Goes T T' := by
  cases hst with
  | marshal hd => exact .inl (prefix_get ⟨_, rfl⟩ hi)
  | append junk hd => exact .inl (prefix_get ⟨_, rfl⟩ hi)
  | drop hid => exact .inl hi
  | op hst =>
    obtain ⟨hj, ho⟩ := hst
    exact set_thread hi hj (.inl ⟨.mk _, rfl⟩)
  | method hm => cases hm with
  | scribble _ _ _ _ _ => exact .inl hi
  | innerMarshal hj hp _ _ => exact set_thread hi hj (.inr ⟨⟨_, _, hp⟩, _, rfl⟩)
  | innerAppend junk hj hp _ _ => exact set_thread hi hj (.inr ⟨⟨_, _, hp⟩, _, rfl⟩)
  | innerDst hj hp _ _ _ _ _ => exact set_thread hi hj (.inr ⟨⟨_, _, hp⟩, _, rfl⟩)

theorem child_ne {p q : Prog Out} (h : Child q p) : q ≠ p := by
  rintro rfl
  have := child_acc q
  induction this with
  | intro q _ ih => exact ih q h h

/-- An operation changes the goroutine. -/
theorem ostep_changes {i : Nat} {T : Thread} (h : OStep i C C') (hi : C.thr[i]? = some T) : C'.thr[i]? ≠ some T := by
  obtain ⟨hj, ho⟩ := h
  rename_i c o k held inner σ x
  rw [hj] at hi; cases hi
  have hlt := (List.getElem?_eq_some_iff.mp hj).1
  simp only [List.getElem?_set_self hlt]
  intro e
  simp only [Option.some.injEq, Thread.mk.injEq] at e
  exact child_ne (Child.mk (o := o) (k := k) x) e.2.1

/-- The next operation can be done. -/
def Able (i : Nat) (C : Conf) : Prop := ∃ C', OStep i C C'

theorem able_of {i : Nat} {T : Thread} {o : Op} {k : o.Res → Prog Out} (hi : C.thr[i]? = some T) (hp : T.prog = .op o k) {σ : Shared} {x : o.Res}
    (hs : o.step C.sh σ x) : Able i C := by
  cases T
  simp only at hp
  subst hp
  exact ⟨_, .mk hi hs⟩

/-- A goroutine that owes a placeholder, or that waits for one which is finished, or does anything else, can go on. -/
theorem able_owing (m : ConfInv W g n C K hs ws) {j : Nat} {T : Thread} (hj : C.thr[j]? = some T) {p : Nat} {x : Option Nat} (hx : (p, x) ∈ ws j)
    (hc : T.prog ≠ .crash) : Able j C := by
  have hm := m.meets j _ hj
  cases hp : T.prog with
  | ret a =>
    rw [hp] at hm
    have := (hm K (.refl K)).1
    rw [this] at hx; cases hx
  | crash => exact absurd hp hc
  | op o k' =>
    rw [hp] at hm
    have hg := hm K (.refl K)
    obtain ⟨σ, y, hs⟩ := op_progress m.mem m.gen hg (by
      rintro c rfl
      have := hg.1
      rw [this] at hx; cases hx)
    exact able_of hj hp hs

theorem able_done (m : ConfInv W g n C K hs ws) {j : Nat} {T : Thread} (hj : C.thr[j]? = some T) {o : Op} {k : o.Res → Prog Out} (hp : T.prog = .op o k)
    (hw : ∀ p, o = .wait p → ∃ s, C.sh.slots[p]? = some s ∧ s.done = true) : Able j C := by
  have hm := m.meets j _ hj
  rw [hp] at hm
  have hg := hm K (.refl K)
  by_cases ho : ∃ p, o = .wait p
  · obtain ⟨p, rfl⟩ := ho
    obtain ⟨s, h1, h2⟩ := hw p rfl
    obtain ⟨-, key, hk, -⟩ := hg
    obtain ⟨f, hf⟩ := Option.ne_none_iff_exists'.mp ((m.gen.slots p _ key h1 hk).2 h2)
    refine able_of (o := .wait p) (σ := C.sh) (x := f) hj hp ⟨rfl, ?_⟩
    rw [h1]
    cases s
    simp only at h2 hf
    rw [h2, hf]
  · obtain ⟨σ, y, hs⟩ := op_progress m.mem m.gen hg (fun c e => ho ⟨c, e⟩)
    exact able_of hj hp hs

/-- A goroutine that calls a method owes no placeholder. -/
theorem owing_method (m : ConfInv W g n C K hs ws) {j : Nat} {T : Thread} (hj : C.thr[j]? = some T) {s : Sl} {k : Bytes → Prog Out}
    (hp : T.prog = .op (.scratch s) k) : ws j = [] := by
  have hm := m.meets j _ hj
  rw [hp] at hm
  exact (hm K (.refl K)).1

/-- A step, or a pause. -/
inductive Tick (W : World) (g n : Nat) (C : Conf) : Conf → Prop
  | pause : Tick W g n C C
  | step {D} : CStep W g n C D → Tick W g n C D

/-- An execution without end: the scheduler and the callers go on for ever. -/
structure FairRun (W : World) (g n : Nat) (e : Nat → Conf) : Prop where
  start : Reached W g n (e 0)
  steps : ∀ k, Tick W g n (e k) (e (k + 1))
  /-- Who can always do the next operation does it at last. -/
  fair : ∀ i k, (∀ m, k ≤ m → Able i (e m)) → ∃ m, k ≤ m ∧ OStep i (e m) (e (m + 1))
  honest : ∀ k, AllHonest (e k)
  /-- In each call, methods make finitely many calls. -/
  finite : ∀ i : Nat, ∃ B, ∀ k (T : Thread), (e k).thr[i]? = some T → T.inner.length ≤ B

/-- An execution without end in which goroutines may be held up at times, but only where they call methods. -/
structure HeldRun (W : World) (g n : Nat) (held : Nat → Nat → Prop) (e : Nat → Conf) : Prop where
  start : Reached W g n (e 0)
  steps : ∀ k, Tick W g n (e k) (e (k + 1))
  fair : ∀ i k, (∀ m, k ≤ m → Able i (e m) ∧ ¬ held m i) → ∃ m, k ≤ m ∧ OStep i (e m) (e (m + 1))
  honest : ∀ k, AllHonest (e k)
  method : ∀ k i T, held k i → (e k).thr[i]? = some T → ∃ s c, T.prog = .op (.scratch s) c

theorem FairRun.heldRun {e : Nat → Conf} (h : FairRun W g n e) : HeldRun W g n (fun _ _ => False) e :=
  ⟨h.start, h.steps, fun i k hk => h.fair i k fun m hm => (hk m hm).1, h.honest, fun _ _ _ hf => hf.elim⟩

/-- Nobody overflows the stack. -/
def Alive (e : Nat → Conf) : Prop := ∀ k, ∀ T ∈ (e k).thr, T.prog ≠ .crash

theorem tick_done (hst : Tick W g n C C') {p : Nat} {s : Slot} (h : C.sh.slots[p]? = some s) (hd : s.done = true) :
    ∃ s', C'.sh.slots[p]? = some s' ∧ s'.done = true := by
  cases hst with
  | pause => exact ⟨s, h, hd⟩
  | step hs => exact step_done hs h hd

theorem tick_thread (hst : Tick W g n C C') {i : Nat} {T : Thread} (hi : C.thr[i]? = some T) :
    C'.thr[i]? = some T ∨ ∃ T', C'.thr[i]? = some T' ∧ Goes T T' := by
  cases hst with
  | pause => exact .inl hi
  | step hs => exact step_thread hs hi

theorem tick_inv (hfl : FmtLong W.fmt) (hh : AllHonest C') (m : ConfInv W g n C K hs ws) (hst : Tick W g n C C') :
    ∃ K' hs' ws', ConfInv W g n C' K' hs' ws' ∧ Link C'.sh ws ws' := by
  cases hst with
  | pause => exact ⟨K, hs, ws, m, link_refl _ _⟩
  | step hs =>
    obtain ⟨K', hs', ws', m', l, -⟩ := step_inv hfl hh m hs
    exact ⟨K', hs', ws', m', l⟩

variable {e : Nat → Conf} {held : Nat → Nat → Prop}

theorem HeldRun.reached (h : HeldRun W g n held e) (k : Nat) : Reached W g n (e k) := by
  induction k with
  | zero => exact h.start
  | succ k ih =>
    have ht := h.steps k
    generalize e (k + 1) = C at ht ⊢
    cases ht with
    | pause => exact ih
    | step hs => exact .step ih hs

theorem HeldRun.done_later (h : HeldRun W g n held e) {k p : Nat} (hd : ∃ s, (e k).sh.slots[p]? = some s ∧ s.done = true) :
    ∀ m, k ≤ m → ∃ s, (e m).sh.slots[p]? = some s ∧ s.done = true := by
  intro m hm
  induction m with
  | zero => have : k = 0 := by omega
            subst this; exact hd
  | succ m ih =>
    by_cases hk : k = m + 1
    · subst hk; exact hd
    · obtain ⟨s, h1, h2⟩ := ih (by omega)
      exact tick_done (h.steps m) h1 h2

/-- Either the goroutine changes at some time or it never does. -/
theorem HeldRun.change (h : HeldRun W g n held e) {k i : Nat} {T : Thread} (hi : (e k).thr[i]? = some T) :
    (∀ m, k ≤ m → (e m).thr[i]? = some T) ∨
      ∃ m T', k ≤ m ∧ (∀ m', k ≤ m' → m' ≤ m → (e m').thr[i]? = some T) ∧ (e (m + 1)).thr[i]? = some T' ∧ Goes T T' := by
  apply Classical.byContradiction
  intro hn
  have h1 : ∀ m, k ≤ m → ∀ m', k ≤ m' → m' ≤ m → (e m').thr[i]? = some T := by
    intro m hm
    induction m with
    | zero => intro m' a b; have : m' = k := by omega
              subst this; exact hi
    | succ m ih =>
      intro m' a b
      by_cases hk : k = m + 1
      · have : m' = k := by omega
        subst this; exact hi
      · by_cases hm' : m' = m + 1
        · subst hm'
          rcases tick_thread (h.steps m) (ih (by omega) m (by omega) (Nat.le_refl _)) with h | ⟨T', h2, h3⟩
          · exact h
          · exact absurd (.inr ⟨m, T', by omega, ih (by omega), h2, h3⟩) hn
        · exact ih (by omega) m' a (by omega)
  exact hn (.inl fun m hm => h1 m hm m hm (Nat.le_refl _))

/-- Who owes a placeholder finishes it. -/
theorem HeldRun.finishes (hfl : FmtLong W.fmt) (h : HeldRun W g n held e) (al : Alive e) {p : Nat} (q : Prog Out) : ∀ {k j : Nat} {T : Thread} {K : Known} {hs : Parts} {ws : Nat → Owed} {x : Option Nat},
    T.prog = q → (e k).thr[j]? = some T → ConfInv W g n (e k) K hs ws → (p, x) ∈ ws j → ∃ m, k ≤ m ∧ ∃ s, (e m).sh.slots[p]? = some s ∧ s.done = true := by
  have hq := child_acc q
  induction hq with
  | intro q _ ih =>
    intro k j T K hs ws x hT hj m hx
    apply Classical.byContradiction
    intro hno
    -- while the goroutine stays, it owes the placeholder
    have stay : ∀ M, k ≤ M → ∃ K' hs' ws', ConfInv W g n (e M) K' hs' ws' ∧ ∃ x', (p, x') ∈ ws' j := by
      intro M hM
      induction M with
      | zero => have : k = 0 := by omega
                subst this; exact ⟨K, hs, ws, m, x, hx⟩
      | succ M ihM =>
        by_cases hk : k = M + 1
        · subst hk; exact ⟨K, hs, ws, m, x, hx⟩
        · obtain ⟨K', hs', ws', m', x', hx'⟩ := ihM (by omega)
          obtain ⟨K'', hs'', ws'', m'', hl⟩ := tick_inv hfl (h.honest (M + 1)) m' (h.steps M)
          refine ⟨K'', hs'', ws'', m'', ?_⟩
          rcases hl j p x' hx' with h1 | h1
          · exact h1
          · exact absurd ⟨M + 1, by omega, h1⟩ hno
    rcases h.change hj with hall | ⟨M, T', hM, hst, hT', hch⟩
    · obtain ⟨M, hM, hos⟩ := h.fair j k (fun M hM => by
        obtain ⟨K', hs', ws', m', x', hx'⟩ := stay M hM
        refine ⟨able_owing m' (hall M hM) hx' (al M T (List.mem_of_getElem? (hall M hM))), fun hd => ?_⟩
        obtain ⟨s, c, hr⟩ := h.method M j T hd (hall M hM)
        rw [owing_method m' (hall M hM) hr] at hx'; cases hx')
      exact ostep_changes hos (hall M hM) (hall (M + 1) (by omega))
    · rcases hch with ⟨hch, -⟩ | ⟨⟨s, kk, hp⟩, -⟩
      · obtain ⟨K', hs', ws', m', x', hx'⟩ := stay (M + 1) (by omega)
        obtain ⟨M', a, b⟩ := ih T'.prog (by rw [← hT]; exact hch) rfl hT' m' hx'
        exact hno ⟨M', by omega, b⟩
      · obtain ⟨K', hs', ws', m', x', hx'⟩ := stay M hM
        rw [owing_method m' (hst M hM (Nat.le_refl _)) hp] at hx'; cases hx'

/-- Every call returns that is not held up for ever. -/
theorem HeldRun.returns (hfl : FmtLong W.fmt) (h : HeldRun W g n held e) (al : Alive e) {i : Nat} (hfree : ∃ k0, ∀ m, k0 ≤ m → ¬ held m i)
    {B : Nat} (hB : ∀ k (T : Thread), (e k).thr[i]? = some T → T.inner.length ≤ B) (b : Nat) : ∀ (q : Prog Out) {k : Nat} {T : Thread}, T.prog = q → B ≤ T.inner.length + b → (e k).thr[i]? = some T →
    ∃ m T' out, k ≤ m ∧ (e m).thr[i]? = some T' ∧ T'.prog = .ret out := by
  induction b using Nat.strongRecOn with | ind b ihb => ?_
  intro q
  have hq := child_acc q
  induction hq with
  | intro q _ ih =>
    intro k T hT hb hi
    rcases h.change hi with hall | ⟨M, T', hM, hst, hT', hch⟩
    · cases hp : T.prog with
      | ret out => exact ⟨k, T, out, Nat.le_refl _, hi, hp⟩
      | crash => exact absurd hp (al k T (List.mem_of_getElem? hi))
      | op o kk =>
        exfalso
        -- from some time on, it is able
        have hev : ∃ k', k ≤ k' ∧ ∀ M, k' ≤ M → Able i (e M) := by
          by_cases hw : ∃ p, o = .wait p
          · obtain ⟨p, rfl⟩ := hw
            have hd : ∃ k', k ≤ k' ∧ ∃ s, (e k').sh.slots[p]? = some s ∧ s.done = true := by
              obtain ⟨K, hs, ws, m⟩ := reached_inv hfl (h.reached k) (h.honest k)
              have hm := m.meets i _ hi
              rw [hp] at hm
              obtain ⟨-, key, hk, -⟩ := hm K (.refl K)
              have hlt := (List.getElem?_eq_some_iff.mp hk).1
              rw [m.gen.slotsLen] at hlt
              have hs1 := List.getElem?_eq_getElem hlt
              cases hd : ((e k).sh.slots[p]'hlt).done with
              | true => exact ⟨k, Nat.le_refl _, _, hs1, hd⟩
              | false =>
                obtain ⟨j, x, hj⟩ := m.gen.ower p _ hs1 hd
                have hjlt : j < (e k).thr.length := by
                  refine Classical.byContradiction fun h => ?_
                  rw [(m.beyond j (by omega)).2] at hj; cases hj
                exact h.finishes hfl al _ rfl (List.getElem?_eq_getElem hjlt) m hj
            obtain ⟨k', hk', hd⟩ := hd
            refine ⟨k', hk', fun M hM => ?_⟩
            obtain ⟨K, hs, ws, m⟩ := reached_inv hfl (h.reached M) (h.honest M)
            refine able_done m (hall M (by omega)) hp fun p' hp' => ?_
            cases hp'
            exact h.done_later hd M hM
          · refine ⟨k, Nat.le_refl _, fun M hM => ?_⟩
            obtain ⟨K, hs, ws, m⟩ := reached_inv hfl (h.reached M) (h.honest M)
            exact able_done m (hall M hM) hp fun p' hp' => absurd ⟨p', hp'⟩ hw
        obtain ⟨k', hk', hab⟩ := hev
        obtain ⟨k0, hk0⟩ := hfree
        obtain ⟨M, hM, hos⟩ := h.fair i (max k' k0) fun M hM => ⟨hab M (Nat.le_trans (Nat.le_max_left _ _) hM), hk0 M (Nat.le_trans (Nat.le_max_right _ _) hM)⟩
        have hM := Nat.le_trans (Nat.le_max_left k' k0) hM
        exact ostep_changes hos (hall M (by omega)) (hall (M + 1) (by omega))
    · rcases hch with ⟨hch, hin⟩ | ⟨-, c, hin⟩
      · obtain ⟨m, T'', out, h1, h2, h3⟩ := ih T'.prog (by rw [← hT]; exact hch) rfl (by rw [hin]; exact hb) hT'
        exact ⟨m, T'', out, by omega, h2, h3⟩
      · have h1 := hB _ _ hT'
        rw [hin, List.length_cons] at h1
        obtain ⟨m, T'', out, h1, h2, h3⟩ := ihb (b - 1) (by omega) T'.prog rfl (by rw [hin, List.length_cons]; omega) hT'
        exact ⟨m, T'', out, by omega, h2, h3⟩

theorem FairRun.reached (h : FairRun W g n e) (k : Nat) : Reached W g n (e k) := h.heldRun.reached k

/-- Every call returns. -/
theorem FairRun.returns (hfl : FmtLong W.fmt) (h : FairRun W g n e) (al : Alive e) (q : Prog Out) {k i : Nat} {T : Thread} (hT : T.prog = q) (hi : (e k).thr[i]? = some T) :
    ∃ m T' out, k ≤ m ∧ (e m).thr[i]? = some T' ∧ T'.prog = .ret out :=
  let ⟨B, hB⟩ := h.finite i
  h.heldRun.returns hfl al ⟨0, fun _ _ h => h⟩ hB B q hT (Nat.le_add_left _ _) hi

end Jettison.Proofs
