import Verif.Proofs.Back
import Verif.Props.Races

/-!
# Methods that call the library

The theorems are about every reachable state of any number of calls, where calls may be
made in the methods of other calls, nested to any depth.
-/

namespace Jettison.Props
open Jettison.Model Jettison.Proofs

variable {W : World} {g n : Nat} {N N' : Nest}

/-! ## Nested calls are calls -/

theorem nstep_step (h : NStep W g n N N') : CStep W g n N.conf N'.conf := by
  cases h with
  | marshal hc _ => exact .marshal hc
  | append junk hc _ => exact .append junk hc
  | op h _ => exact .op h
  | method h => exact .method h
  | drop h => exact .drop h

theorem nreached_reached (h : NReached W g n N) : Reached W g n N.conf := by
  induction h with
  | init => exact .refl
  | step _ hs ih => exact .step ih (nstep_step hs)

/-- What holds of the calls in every reachable state. -/
structure NestInv (N : Nest) : Prop where
  len : N.up.length = N.conf.thr.length
  len' : N.ended.length = N.conf.thr.length
  /-- A call in a method is made after the one that called the method. -/
  later : ∀ i j d : Nat, N.up[j]? = some (some (i, d)) → i < j
  /-- Calls end after they have been made, and each returns to the method that made it. -/
  shape : ∀ (i : Nat) (T : Thread), N.conf.thr[i]? = some T → (N.ended[i]?).getD 0 ≤ T.inner.length ∧ Shape (N.depth i) T.prog
  /-- The method that waits for a call has not returned; it is running if no call made by it is. -/
  waits : ∀ (i j d : Nat) (T : Thread), N.up[j]? = some (some (i, d)) → N.conf.thr[j]? = some T → (∀ out, T.prog ≠ .ret out) →
    d ≤ N.depth i ∧ (d = N.depth i → N.InMethod i)

/-- Who waits for a call is in a method. -/
theorem NestInv.held (m : NestInv N) (i : Nat) (h : N.Held i) : N.InMethod i := by
  obtain ⟨j, T, h1, h2, h3⟩ := h
  exact (m.waits i j _ T h1 h2 h3).2 rfl

theorem ostep_thr {i : Nat} {C C' : Conf} (h : OStep i C C') :
    C'.thr.length = C.thr.length ∧ (∀ j, j ≠ i → C'.thr[j]? = C.thr[j]?) ∧ ∃ T T' o k x, C.thr[i]? = some T ∧ T.prog = .op o k ∧ C'.thr[i]? = some T' ∧ T'.prog = k x ∧ T'.inner = T.inner := by
  cases h with
  | mk hi _ => exact ⟨by simp, fun j hj => List.getElem?_set_ne (Ne.symm hj), _, _, _, _, _, hi, rfl, List.getElem?_set_self (List.getElem?_eq_some_iff.mp hi).1, rfl, rfl⟩

theorem mstep_thr {i : Nat} {C C' : Conf} (h : MStep W g n i C C') :
    C'.thr.length = C.thr.length ∧ (∀ j, j ≠ i → C'.thr[j]? = C.thr[j]?) ∧ ∃ T s k, C.thr[i]? = some T ∧ T.prog = .op (.scratch s) k ∧
      (C'.thr = C.thr ∨ ∃ c p, NoBack p ∧ C'.thr[i]? = some (T.during n c p s k)) := by
  cases h with
  | scribble hi hp _ _ _ => exact ⟨rfl, fun _ _ => rfl, _, _, _, hi, hp, .inl rfl⟩
  | innerMarshal hi hp _ _ => exact ⟨by simp, fun j hj => List.getElem?_set_ne (Ne.symm hj), _, _, _, hi, hp, .inr ⟨_, _, judge_marshal (noBack_judge _ _) _, List.getElem?_set_self (List.getElem?_eq_some_iff.mp hi).1⟩⟩
  | innerAppend _ hi hp _ _ => exact ⟨by simp, fun j hj => List.getElem?_set_ne (Ne.symm hj), _, _, _, hi, hp, .inr ⟨_, _, judge_append (noBack_judge _ _) _ _, List.getElem?_set_self (List.getElem?_eq_some_iff.mp hi).1⟩⟩
  | innerDst hi hp _ _ _ _ _ => exact ⟨by simp, fun j hj => List.getElem?_set_ne (Ne.symm hj), _, _, _, hi, hp, .inr ⟨_, _, judge_append (noBack_judge _ _) _ _, List.getElem?_set_self (List.getElem?_eq_some_iff.mp hi).1⟩⟩

theorem depth_of {i : Nat} {T : Thread} (h : N.conf.thr[i]? = some T) : N.depth i = T.inner.length - (N.ended[i]?).getD 0 := by
  unfold Nest.depth; rw [h]

theorem backs_eq {T : Thread} {o : Op} {k : o.Res → Prog Out} (hp : T.prog = .op o k) : T.backs = isBack o := by
  unfold Thread.backs; rw [hp]; cases o <;> rfl

/-- What is left of `inv` when one goroutine has changed. -/
theorem inv_of {C' : Conf} {i : Nat} {l : List Nat} (m : NestInv N) (hl : C'.thr.length = N.conf.thr.length) (hne : ∀ j, j ≠ i → C'.thr[j]? = N.conf.thr[j]?)
    (hl' : l.length = N.ended.length) (hne' : ∀ j, j ≠ i → l[j]? = N.ended[j]?)
    {T T' : Thread} {o : Op} {k : o.Res → Prog Out} (hT : N.conf.thr[i]? = some T) (hp : T.prog = .op o k) (hT' : C'.thr[i]? = some T')
    (hshape : (l[i]?).getD 0 ≤ T'.inner.length ∧ Shape (Nest.depth ⟨C', N.up, l⟩ i) T'.prog)
    (hwaits : ∀ d, d ≤ N.depth i → (d = N.depth i → N.Held i) → d ≤ Nest.depth ⟨C', N.up, l⟩ i ∧ (d = Nest.depth ⟨C', N.up, l⟩ i → ∃ s k, T'.prog = .op (.scratch s) k)) : NestInv ⟨C', N.up, l⟩ := by
  have hdep : ∀ j, j ≠ i → Nest.depth ⟨C', N.up, l⟩ j = N.depth j := by
    intro j hj
    unfold Nest.depth
    simp only [hne j hj, hne' j hj]
  refine ⟨m.len.trans hl.symm, (hl'.trans m.len').trans hl.symm, m.later, fun j T1 h1 => ?_, fun i' j d T1 h1 h2 h3 => ?_⟩
  · by_cases hj : j = i
    · subst hj
      simp only at h1
      rw [hT'] at h1; cases h1
      exact hshape
    · simp only [hne j hj] at h1
      rw [hdep j hj]
      simp only [hne' j hj]
      exact m.shape j T1 h1
  · simp only at h1 h2
    have old : ∃ T0, N.conf.thr[j]? = some T0 ∧ ∀ out, T0.prog ≠ .ret out := by
      by_cases hj : j = i
      · subst hj
        exact ⟨T, hT, by rw [hp]; intro out e; cases e⟩
      · exact ⟨T1, by rw [← hne j hj]; exact h2, h3⟩
    obtain ⟨T0, h0, hn⟩ := old
    have hw := m.waits i' j d T0 h1 h0 hn
    by_cases hi : i' = i
    · subst hi
      obtain ⟨a, b⟩ := hwaits d hw.1 (fun e => ⟨j, T0, by rw [← e]; exact h1, h0, hn⟩)
      refine ⟨a, fun e => ?_⟩
      obtain ⟨s, k', hk⟩ := b e
      exact ⟨T', s, k', hT', hk⟩
    · rw [hdep i' hi]
      refine ⟨hw.1, fun e => ?_⟩
      obtain ⟨T2, s, k', a1, a2⟩ := hw.2 e
      exact ⟨T2, s, k', by simp only [hne i' hi]; exact a1, a2⟩

theorem inv_op {C' : Conf} {i : Nat} (m : NestInv N) (h : OStep i N.conf C') (hh : ¬ N.Held i) : NestInv ⟨C', N.up, N.after i⟩ := by
  obtain ⟨hl, hne, T, T', o, k, x, hT, hp, hT', hp', hin⟩ := ostep_thr h
  obtain ⟨hle, hs⟩ := m.shape i T hT
  have hd := depth_of hT
  rw [hp] at hs
  have ha : N.after i = if isBack o then N.ended.modify i (· + 1) else N.ended := by
    unfold Nest.after; rw [hT]; simp only [backs_eq hp]
  cases hb : isBack o with
  | false =>
    rw [hb] at ha
    simp only [Bool.false_eq_true, if_false] at ha
    rw [ha]
    have hd' : Nest.depth ⟨C', N.up, N.ended⟩ i = N.depth i := by
      unfold Nest.depth; simp only [hT, hT', hin]
    refine inv_of m hl hne rfl (fun _ _ => rfl) hT hp hT' ⟨by rw [hin]; exact hle, ?_⟩ fun d h1 h2 => ?_
    · rw [hd', hp']; exact shape_next hs hb x
    · rw [hd']; exact ⟨h1, fun e => absurd (h2 e) hh⟩
  | true =>
    rw [hb] at ha
    simp only [if_true] at ha
    rw [ha]
    obtain ⟨d', e, hs', s, k', hk⟩ := shape_back hs hb x
    have hlt : i < N.ended.length := by rw [m.len']; exact (List.getElem?_eq_some_iff.mp hT).1
    have he : (N.ended.modify i (· + 1))[i]? = some ((N.ended[i]?).getD 0 + 1) := by
      rw [List.getElem?_modify_eq, List.getElem?_eq_getElem hlt]; rfl
    have hd' : Nest.depth ⟨C', N.up, N.ended.modify i (· + 1)⟩ i = d' := by
      unfold Nest.depth; simp only [hT', hin, he, Option.getD_some]; omega
    refine inv_of m hl hne (List.length_modify ..) (fun j hj => List.getElem?_modify_ne (· + 1) _ (Ne.symm hj)) hT hp hT' ⟨by rw [hin, he, Option.getD_some]; omega, ?_⟩ fun d h1 h2 => ?_
    · rw [hd', hp']; exact hs'
    · rw [hd']
      refine ⟨?_, fun _ => ⟨s, k', hp'.trans hk⟩⟩
      by_cases hx : d = N.depth i
      · exact absurd (h2 hx) hh
      · omega

theorem inv_method {C' : Conf} {i : Nat} (m : NestInv N) (h : MStep W g n i N.conf C') : NestInv ⟨C', N.up, N.ended⟩ := by
  obtain ⟨hl, hne, T, s, k, hT, hp, hC⟩ := mstep_thr h
  obtain ⟨hle, hs⟩ := m.shape i T hT
  have hd := depth_of hT
  rcases hC with hC | ⟨c, p, hpn, hT'⟩
  · have hT' : C'.thr[i]? = some T := by rw [hC]; exact hT
    have hd' : Nest.depth ⟨C', N.up, N.ended⟩ i = N.depth i := by
      unfold Nest.depth; simp only [hT, hT']
    refine inv_of m hl hne rfl (fun _ _ => rfl) hT hp hT' ⟨hle, by rw [hd']; exact hs⟩ fun d h1 _ => ?_
    rw [hd']; exact ⟨h1, fun _ => ⟨s, k, hp⟩⟩
  · have hd' : Nest.depth ⟨C', N.up, N.ended⟩ i = N.depth i + 1 := by
      unfold Nest.depth; simp only [hT, hT', Thread.during, List.length_cons]; omega
    refine inv_of m hl hne rfl (fun _ _ => rfl) hT hp hT' ⟨?_, ?_⟩ fun d h1 _ => ?_
    · simp only [Thread.during, List.length_cons]; omega
    · rw [hd']
      refine .inner hpn ?_
      rw [← hp]; exact hs
    · rw [hd']; exact ⟨by omega, fun e => by omega⟩

theorem inv_call {σ : Shared} {T : Thread} {u : Option (Nat × Nat)} (m : NestInv N) (hu : N.Calls u) (hin : T.inner = []) (hp : NoBack T.prog) :
    NestInv ⟨⟨σ, N.conf.thr ++ [T]⟩, N.up ++ [u], N.ended ++ [0]⟩ := by
  have hold : ∀ {i : Nat}, i < N.conf.thr.length → (N.conf.thr ++ [T])[i]? = N.conf.thr[i]? := fun h => List.getElem?_append_left h
  have hdep : ∀ i, i < N.conf.thr.length → Nest.depth ⟨⟨σ, N.conf.thr ++ [T]⟩, N.up ++ [u], N.ended ++ [0]⟩ i = N.depth i := by
    intro i hi
    unfold Nest.depth
    simp only [hold hi, List.getElem?_append_left (l₂ := [0]) (show i < N.ended.length by rw [m.len']; exact hi)]
  have keep : ∀ i, N.InMethod i → Nest.InMethod ⟨⟨σ, N.conf.thr ++ [T]⟩, N.up ++ [u], N.ended ++ [0]⟩ i := by
    rintro i ⟨T', s, k, h1, h2⟩
    exact ⟨T', s, k, by rw [List.getElem?_append_left (List.getElem?_eq_some_iff.mp h1).1]; exact h1, h2⟩
  have new : ∀ x j, (N.up ++ [u])[j]? = some (some x) → N.up[j]? = some (some x) ∨ j = N.up.length ∧ u = some x := by
    intro x j h
    rw [List.getElem?_append] at h
    split at h
    · exact .inl h
    · right
      cases hj : j - N.up.length with
      | zero => rw [hj] at h; simp only [List.getElem?_cons_zero, Option.some.injEq] at h; exact ⟨by omega, h⟩
      | succ x => rw [hj] at h; simp at h
  refine ⟨by simp [m.len], by simp [m.len'], fun i j d h => ?_, fun i T' h => ?_, fun i j d T' h1 h2 h3 => ?_⟩
  · rcases new (i, d) j h with h | ⟨rfl, rfl⟩
    · exact m.later i j d h
    · obtain ⟨⟨T', _, _, h1, _⟩, -⟩ := hu
      have := (List.getElem?_eq_some_iff.mp h1).1
      rw [m.len]; exact this
  · by_cases hi : i < N.conf.thr.length
    · simp only [hold hi] at h
      rw [hdep i hi]
      simp only [List.getElem?_append_left (l₂ := [0]) (show i < N.ended.length by rw [m.len']; exact hi)]
      exact m.shape i T' h
    · simp only at h
      have hlt := (List.getElem?_eq_some_iff.mp h).1
      simp only [List.length_append, List.length_cons, List.length_nil] at hlt
      have hi' : i = N.conf.thr.length := by omega
      subst hi'
      have hz : (N.ended ++ [0])[N.conf.thr.length]? = some 0 := by rw [← m.len']; simp
      rw [List.getElem?_concat_length] at h
      cases h
      refine ⟨by simp only [hz, Option.getD_some]; omega, ?_⟩
      rw [show Nest.depth ⟨⟨σ, N.conf.thr ++ [T]⟩, N.up ++ [u], N.ended ++ [0]⟩ N.conf.thr.length = 0 by
        unfold Nest.depth; simp only [List.getElem?_concat_length, hin]; simp]
      exact .outer hp
  · rcases new (i, d) j h1 with h | ⟨rfl, rfl⟩
    · have hlt := (List.getElem?_eq_some_iff.mp h).1
      rw [m.len] at hlt
      have hi := Nat.lt_trans (m.later i j d h) hlt
      simp only [hold hlt] at h2
      rw [hdep i hi]
      exact ⟨(m.waits i j d T' h h2 h3).1, fun e => keep i ((m.waits i j d T' h h2 h3).2 e)⟩
    · obtain ⟨hm, he⟩ := hu
      obtain ⟨T1, _, _, a1, _⟩ := id hm
      rw [hdep i (List.getElem?_eq_some_iff.mp a1).1]
      exact ⟨by omega, fun _ => keep i hm⟩

theorem nreached_inv (h : NReached W g n N) : NestInv N := by
  induction h with
  | init => exact ⟨rfl, rfl, by simp, by simp, by simp⟩
  | step _ hs m =>
    cases hs with
    | marshal _ hu => exact inv_call m hu rfl (judge_marshal (noBack_judge _ _) _)
    | append _ _ hu => exact inv_call m hu rfl (judge_append (noBack_judge _ _) _ _)
    | op ho hh => exact inv_op m ho hh
    | method ho => exact inv_method m ho
    | drop _ => exact ⟨m.len, m.len', m.later, m.shape, m.waits⟩

/-- C64: a call made in a method returns what it returns alone, and so does the call whose
method made it, whatever calls are made in methods. -/
theorem C64_result (hl : FormatContract W.fmt) (hr : NReached W g n N) (hh : AllHonest N.conf) {T : Thread} (hT : T ∈ N.conf.thr) {out : Out}
    (ho : Returned T out) : out.view N.conf.sh = some (T.call.alone W n) :=
  C31_result hl (nreached_reached hr) hh hT ho

/-- The last call made within a call that has not ended is not held up. -/
theorem innermost (m : NestInv N) : ∀ (d : Nat) {i : Nat} {T : Thread}, N.conf.thr.length - i ≤ d → N.conf.thr[i]? = some T → (∀ out, T.prog ≠ .ret out) →
    ∃ j T', N.conf.thr[j]? = some T' ∧ (∀ out, T'.prog ≠ .ret out) ∧ ¬ N.Held j ∧ (j = i ∨ MadeIn N.up i j)
  | 0, i, T, hd, hi, _ => by have := (List.getElem?_eq_some_iff.mp hi).1; omega
  | d + 1, i, T, hd, hi, hn => by
    by_cases hh : N.Held i
    · obtain ⟨j, T', h1, h2, h3⟩ := hh
      have hlt := (List.getElem?_eq_some_iff.mp hi).1
      have := m.later i j _ h1
      obtain ⟨l, T'', a1, a2, a3, a4⟩ := innermost m d (by omega) h2 h3
      refine ⟨l, T'', a1, a2, a3, .inr ?_⟩
      rcases a4 with rfl | a4
      · exact .one h1
      · clear hd a1 a2 a3
        induction a4 with
        | one h => exact .deep h (.one h1)
        | deep h _ ih => exact .deep h ih
    · exact ⟨i, T, hi, hn, hh, .inl rfl⟩

/-- C64: no deadlock. While some call has not ended, some call that is not held up by calls
made in its methods can do its next operation, unless the process has crashed. It is one made within that
call, or that call itself, or one that generates what such a call waits for. -/
theorem C64_no_deadlock (hl : FormatContract W.fmt) (hr : NReached W g n N) (hh : AllHonest N.conf) {T : Thread} (hT : T ∈ N.conf.thr)
    (hn : ∀ out, ¬ Returned T out) : (∃ T' ∈ N.conf.thr, Crashed T') ∨ ∃ j D, OStep j N.conf D ∧ ¬ N.Held j := by
  have mN := nreached_inv hr
  obtain ⟨K, hs, ws, m⟩ := reached_inv (contract_long hl) (nreached_reached hr) hh
  obtain ⟨i0, hi0, rfl⟩ := List.getElem_of_mem hT
  obtain ⟨i, T, hi, hn, hheld, -⟩ := innermost mN _ (Nat.le_refl _) (List.getElem?_eq_getElem hi0) hn
  cases hp : T.prog with
  | ret out => exact absurd hp (hn out)
  | crash => exact .inl ⟨_, List.mem_of_getElem? hi, hp⟩
  | op o k =>
    by_cases hw : ∃ p, o = .wait p ∧ ∀ s, N.conf.sh.slots[p]? = some s → s.done = false
    · obtain ⟨p, rfl, hd⟩ := hw
      have hm := m.meets i _ hi
      rw [hp] at hm
      obtain ⟨-, key, hk, -⟩ := hm K (.refl K)
      have hlt := (List.getElem?_eq_some_iff.mp hk).1
      rw [m.gen.slotsLen] at hlt
      have hs1 := List.getElem?_eq_getElem hlt
      obtain ⟨j, x, hj⟩ := m.gen.ower p _ hs1 (hd _ hs1)
      have hjlt : j < N.conf.thr.length := by
        refine Classical.byContradiction fun h => ?_
        rw [(m.beyond j (by omega)).2] at hj; cases hj
      have hjT := List.getElem?_eq_getElem hjlt
      by_cases hc : N.conf.thr[j].prog = .crash
      · exact .inl ⟨_, List.getElem_mem hjlt, hc⟩
      · obtain ⟨D, hD⟩ := able_owing m hjT hj hc
        refine .inr ⟨j, D, hD, fun hh => ?_⟩
        obtain ⟨T', s, k', a1, a2⟩ := mN.held j hh
        rw [owing_method m a1 a2] at hj; cases hj
    · obtain ⟨D, hD⟩ := able_done m hi hp fun p hp' => by
        apply Classical.byContradiction
        intro hno
        refine hw ⟨p, hp', fun s hs => ?_⟩
        cases hd : s.done with
        | false => rfl
        | true => exact absurd ⟨s, hs, hd⟩ hno
      exact .inr ⟨i, D, hD, hheld⟩

/-- C64: a call that generates instructions runs no methods: while others may wait for it,
no call is made in a method of it, and it is not held up. -/
theorem C64_generator (hl : FormatContract W.fmt) (hr : NReached W g n N) (hh : AllHonest N.conf) {p : Nat} {s : Slot}
    (hs : N.conf.sh.slots[p]? = some s) (hd : s.done = false) :
    ∃ j T, N.conf.thr[j]? = some T ∧ ¬ N.InMethod j ∧ ¬ N.Held j ∧ (Crashed T ∨ ∃ D, OStep j N.conf D) := by
  have mN := nreached_inv hr
  obtain ⟨K, hs', ws, m⟩ := reached_inv (contract_long hl) (nreached_reached hr) hh
  obtain ⟨j, x, hj⟩ := m.gen.ower p _ hs hd
  have hjlt : j < N.conf.thr.length := by
    refine Classical.byContradiction fun h => ?_
    rw [(m.beyond j (by omega)).2] at hj; cases hj
  have hno : ¬ N.InMethod j := by
    rintro ⟨T', s', k', a1, a2⟩
    rw [owing_method m a1 a2] at hj; cases hj
  refine ⟨j, N.conf.thr[j], List.getElem?_eq_getElem hjlt, hno, fun h => hno (mN.held j h), ?_⟩
  by_cases hc : Crashed N.conf.thr[j]
  · exact .inl hc
  · exact .inr (able_owing m (List.getElem?_eq_getElem hjlt) hj hc)

/-- C64: when a call has ended, so have all the calls made within it. -/
theorem C64_ended (hr : NReached W g n N) {i j : Nat} {T T' : Thread} {out : Out} (hi : N.conf.thr[i]? = some T) (ho : Returned T out)
    (hw : MadeIn N.up i j) (hj : N.conf.thr[j]? = some T') : ∃ out', Returned T' out' := by
  have m := nreached_inv hr
  have one : ∀ {i j d : Nat} {T T' : Thread} {out : Out}, N.conf.thr[i]? = some T → Returned T out → N.up[j]? = some (some (i, d)) →
      N.conf.thr[j]? = some T' → ∃ out', Returned T' out' := by
    intro i j d T T' out hi ho hu hj
    apply Classical.byContradiction
    intro hn
    unfold Returned at ho
    have h0 := (m.shape i T hi).2
    rw [ho] at h0
    have h1 := m.waits i j d T' hu hj fun out h => hn ⟨out, h⟩
    obtain ⟨T1, s, k, a1, a2⟩ := h1.2 (by have := shape_ret h0; omega)
    rw [hi] at a1; cases a1
    rw [ho] at a2; cases a2
  induction hw generalizing T' with
  | one h => exact one hi ho h hj
  | deep h _ ih =>
    rename_i j' l d _
    have hlt : l < N.conf.thr.length := by
      have := m.later _ _ _ h
      have := (List.getElem?_eq_some_iff.mp hj).1
      omega
    obtain ⟨out', ho'⟩ := ih (List.getElem?_eq_getElem hlt)
    exact one (List.getElem?_eq_getElem hlt) ho' h hj

/-- C64: and when a call that a method has made in its own goroutine is about to return to the method, all
goroutines have ended that were started by its methods, or by those of calls within it. -/
theorem C64_ended_inner (hr : NReached W g n N) {i j d : Nat} {T T' : Thread} {b : Nat} {c : Call} {l : List Nat} {out : Out} {k : Unit → Prog Out}
    (hi : N.conf.thr[i]? = some T) (hp : T.prog = .op (.back b c l out) k) (hu : N.up[j]? = some (some (i, d))) (hd : N.depth i ≤ d)
    (hj : N.conf.thr[j]? = some T') : ∃ out', Returned T' out' := by
  have m := nreached_inv hr
  apply Classical.byContradiction
  intro hn
  have h1 := m.waits i j d T' hu hj fun out h => hn ⟨out, h⟩
  obtain ⟨T1, s, k, a1, a2⟩ := h1.2 (by omega)
  rw [hi] at a1; cases a1
  rw [hp] at a2; cases a2

/-! ## Fairness -/

/-- A step, or a pause. -/
inductive NTick (W : World) (g n : Nat) (N : Nest) : Nest → Prop
  | pause : NTick W g n N N
  | step {D} : NStep W g n N D → NTick W g n N D

/-- An execution without end: the scheduler and the callers go on for ever. -/
structure FairNest (W : World) (g n : Nat) (e : Nat → Nest) : Prop where
  start : NReached W g n (e 0)
  steps : ∀ k, NTick W g n (e k) (e (k + 1))
  /-- Who can always do the next operation, and is not held up by calls made in its methods, does it at last. -/
  fair : ∀ i k, (∀ m, k ≤ m → (∃ D, OStep i (e m).conf D) ∧ ¬ (e m).Held i) → ∃ m, k ≤ m ∧ OStep i (e m).conf (e (m + 1)).conf
  honest : ∀ k, AllHonest (e k).conf
  /-- Within each call, finitely many calls are made: in other goroutines, and in its own. -/
  finite : ∀ i, ∃ B, ∀ k j, MadeIn (e k).up i j → j < B
  finite' : ∀ i : Nat, ∃ B, ∀ k (T : Thread), (e k).conf.thr[i]? = some T → T.inner.length ≤ B

variable {e : Nat → Nest}

theorem FairNest.reached (h : FairNest W g n e) (k : Nat) : NReached W g n (e k) := by
  induction k with
  | zero => exact h.start
  | succ k ih =>
    have ht := h.steps k
    generalize e (k + 1) = C at ht ⊢
    cases ht with
    | pause => exact ih
    | step hs => exact .step ih hs

theorem ntick_tick (h : NTick W g n N N') : Tick W g n N.conf N'.conf := by
  cases h with
  | pause => exact .pause
  | step h => exact .step (nstep_step h)

theorem ntick_up (h : NTick W g n N N') : N.up <+: N'.up := by
  cases h with
  | pause => exact List.prefix_refl _
  | step h =>
    cases h with
    | marshal _ _ => exact List.prefix_append _ _
    | append _ _ _ => exact List.prefix_append _ _
    | op _ _ => exact List.prefix_refl _
    | method _ => exact List.prefix_refl _
    | drop _ => exact List.prefix_refl _

theorem FairNest.heldRun (h : FairNest W g n e) : HeldRun W g n (fun k i => (e k).Held i) (fun k => (e k).conf) where
  start := nreached_reached h.start
  steps k := ntick_tick (h.steps k)
  fair i k hk := h.fair i k hk
  honest := h.honest
  method k i T hd hi := by
    obtain ⟨T', s, c, a1, a2⟩ := (nreached_inv (h.reached k)).held i hd
    rw [hi] at a1; cases a1
    exact ⟨s, c, a2⟩

theorem FairNest.up_mono (h : FairNest W g n e) {k : Nat} : ∀ {m : Nat}, k ≤ m → (e k).up <+: (e m).up
  | 0, hm => by have : k = 0 := by omega
                subst this; exact List.prefix_refl _
  | m + 1, hm => by
    by_cases hk : k = m + 1
    · subst hk; exact List.prefix_refl _
    · exact (h.up_mono (m := m) (by omega)).trans (ntick_up (h.steps m))

theorem madeIn_mono {l l' : List (Option (Nat × Nat))} (h : l <+: l') {i j : Nat} (hw : MadeIn l i j) : MadeIn l' i j := by
  induction hw with
  | one h1 => exact .one (prefix_get h h1)
  | deep h1 _ ih => exact .deep (prefix_get h h1) ih

theorem madeIn_trans {l : List (Option (Nat × Nat))} {i j k : Nat} (h1 : MadeIn l i j) (h2 : MadeIn l j k) : MadeIn l i k := by
  induction h2 with
  | one h => exact .deep h h1
  | deep h _ ih => exact .deep h ih

theorem ret_goes {T T' : Thread} {out : Out} (ho : T.prog = .ret out) : ¬ Goes T T' := by
  unfold Goes
  rw [ho]
  rintro (⟨hc, -⟩ | ⟨⟨s, k, h⟩, -⟩)
  · generalize T'.prog = q at hc; cases hc
  · cases h

theorem FairNest.returned_later (h : FairNest W g n e) {k i : Nat} {T : Thread} {out : Out} (hi : (e k).conf.thr[i]? = some T) (ho : T.prog = .ret out) :
    ∀ m, k ≤ m → (e m).conf.thr[i]? = some T := by
  intro m hm
  induction m with
  | zero => have : k = 0 := by omega
            subst this; exact hi
  | succ m ih =>
    by_cases hk : k = m + 1
    · subst hk; exact hi
    · rcases tick_thread (ntick_tick (h.steps m)) (ih (by omega)) with h | ⟨T', -, hc⟩
      · exact h
      · exact absurd hc (ret_goes ho)

theorem bounded_choice {P : Nat → Nat → Prop} (up : ∀ j m m', m ≤ m' → P j m → P j m') : ∀ B, (∀ j, j < B → ∃ m, P j m) → ∃ m, ∀ j, j < B → P j m
  | 0, _ => ⟨0, fun j h => by omega⟩
  | B + 1, hb => by
    obtain ⟨m, hm⟩ := bounded_choice up B fun j hj => hb j (by omega)
    obtain ⟨m', hm'⟩ := hb B (by omega)
    refine ⟨max m m', fun j hj => ?_⟩
    by_cases h : j = B
    · subst h; exact up _ _ _ (Nat.le_max_right _ _) hm'
    · exact up _ _ _ (Nat.le_max_left _ _) (hm j (by omega))

theorem FairNest.ends (hfl : FmtLong W.fmt) (h : FairNest W g n e) (al : Alive fun k => (e k).conf) (B : Nat) : ∀ (d : Nat) {i : Nat}, B - i ≤ d →
    (∀ k j, MadeIn (e k).up i j → j < B) → ∀ {k : Nat} {T : Thread}, (e k).conf.thr[i]? = some T →
    ∃ m T' out, k ≤ m ∧ (e m).conf.thr[i]? = some T' ∧ T'.prog = .ret out := by
  intro d
  induction d with
  | zero =>
    intro i hd hB k T hi
    obtain ⟨Bi, hBi⟩ := h.finite' i
    refine h.heldRun.returns hfl al ⟨0, fun m _ hh => ?_⟩ hBi Bi _ rfl (Nat.le_add_left _ _) hi
    obtain ⟨j, T', h1, -, -⟩ := hh
    have := hB m j (.one h1)
    have := (nreached_inv (h.reached m)).later i j _ h1
    omega
  | succ d ih =>
    intro i hd hB k T hi
    obtain ⟨Bi, hBi⟩ := h.finite' i
    refine h.heldRun.returns hfl al ?_ hBi Bi _ rfl (Nat.le_add_left _ _) hi
    -- from some time on, all calls made in methods have ended
    have hall : ∀ j, j < B → ∃ m0, ∀ m d, m0 ≤ m → (e m).up[j]? = some (some (i, d)) → ∃ T out, (e m).conf.thr[j]? = some T ∧ T.prog = .ret out := by
      intro j hj
      by_cases hex : ∃ m d, (e m).up[j]? = some (some (i, d))
      · obtain ⟨m, d', hm⟩ := hex
        have mN := nreached_inv (h.reached m)
        have hlt := (List.getElem?_eq_some_iff.mp hm).1
        rw [mN.len] at hlt
        have hij := mN.later i j _ hm
        obtain ⟨m', T', out, a1, a2, a3⟩ := ih (i := j) (by omega) (fun k' l hw => by
            have hw' := madeIn_mono (h.up_mono (Nat.le_max_right m k')) hw
            have hm' := prefix_get (h.up_mono (Nat.le_max_left m k')) hm
            exact hB _ _ (madeIn_trans (.one hm') hw')) (List.getElem?_eq_getElem hlt)
        exact ⟨m', fun m'' _ hm'' _ => ⟨T', out, h.returned_later a2 a3 m'' hm'', a3⟩⟩
      · exact ⟨0, fun m d _ hm => absurd ⟨m, d, hm⟩ hex⟩
    obtain ⟨m0, hm0⟩ := bounded_choice (fun j m m' hm hP m'' d hm'' => hP m'' d (Nat.le_trans hm hm'')) B hall
    refine ⟨m0, fun m hm hh => ?_⟩
    obtain ⟨j, T', h1, h2, h3⟩ := hh
    obtain ⟨T1, out, a1, a2⟩ := hm0 j (hB m j (.one h1)) m _ hm h1
    rw [h2] at a1; cases a1
    exact h3 out a2

/-- C64: under a fair scheduler every call returns, with what it returns alone, whatever calls are made
in methods, if within each call finitely many are made and the stack never overflows. -/
theorem C64_fair (hl : FormatContract W.fmt) (hf : FairNest W g n e) (al : Alive fun k => (e k).conf) {k i : Nat} {T : Thread}
    (hi : (e k).conf.thr[i]? = some T) :
    ∃ m T' out, k ≤ m ∧ (e m).conf.thr[i]? = some T' ∧ T'.call = T.call ∧ Returned T' out ∧ out.view (e m).conf.sh = some (T.call.alone W n) := by
  obtain ⟨B, hB⟩ := hf.finite i
  obtain ⟨m, T', out, h1, h2, h3⟩ := hf.ends (contract_long hl) al B _ (Nat.le_refl _) hB hi
  have hc : ∀ m, k ≤ m → ∃ T', (e m).conf.thr[i]? = some T' ∧ T'.call = T.call := by
    intro m hm
    induction m with
    | zero => have : k = 0 := by omega
              subst this; exact ⟨T, hi, rfl⟩
    | succ m ih =>
      by_cases hk : k = m + 1
      · subst hk; exact ⟨T, hi, rfl⟩
      · obtain ⟨T1, a1, a2⟩ := ih (by omega)
        have ht := hf.steps m
        generalize e (m + 1) = D at ht ⊢
        cases ht with
        | pause => exact ⟨T1, a1, a2⟩
        | step hs =>
          obtain ⟨T2, b1, b2, -⟩ := step_call (nstep_step hs) a1
          exact ⟨T2, b1, b2.trans a2⟩
  obtain ⟨T1, a1, a2⟩ := hc m h1
  rw [h2] at a1; cases a1
  refine ⟨m, T', out, h1, h2, a2, h3, ?_⟩
  rw [C64_result hl (hf.reached m) (hf.honest m) (List.mem_of_getElem? h2) h3, a2]

/-! ## A method that calls the library -/

/-- Whether the call waits for one made in a method of it. -/
def heldB (N : Nest) (i : Nat) : Bool :=
  (List.range N.up.length).any fun j => N.up[j]? == some (some (i, N.depth i)) && (match N.conf.thr[j]? with
    | some T => (match T.prog with | .ret _ => false | _ => true)
    | none => false)

theorem heldB_of {i : Nat} (h : N.Held i) : heldB N i = true := by
  obtain ⟨j, T, h1, h2, h3⟩ := h
  refine List.any_eq_true.mpr ⟨j, List.mem_range.mpr (List.getElem?_eq_some_iff.mp h1).1, ?_⟩
  rw [h1, h2]
  simp only [BEq.rfl, Bool.true_and]

/-- Whether the call can do its next operation. -/
def canB (i : Nat) (C : Conf) : Bool := match C.thr[i]? with
  | some T => (tryProg T C.sh).isSome
  | none => false

theorem tryStep_op {i : Nat} {C : Conf} (h : canB i C = true) : OStep i C (tryStep i C) := by
  unfold canB at h
  unfold tryStep
  cases hi : C.thr[i]? with
  | none => rw [hi] at h; cases h
  | some T =>
    rw [hi] at h
    simp only at h ⊢
    cases hp : tryProg T C.sh with
    | none => rw [hp] at h; cases h
    | some r =>
      obtain ⟨c, p, held, inner⟩ := T
      unfold tryProg at hp
      cases p with
      | ret a => cases hp
      | crash => cases hp
      | op o k =>
        simp only [Option.map_eq_some_iff] at hp
        obtain ⟨⟨σ', x⟩, h1, rfl⟩ := hp
        exact .mk hi (tryOp_step h1)

/-- The call does its next operation if it can. -/
def tryNest (i : Nat) (N : Nest) : Nest := if heldB N i || !canB i N.conf then N else ⟨tryStep i N.conf, N.up, N.after i⟩

theorem tryNest_ok (W : World) (g n i : Nat) (N : Nest) : NTick W g n N (tryNest i N) := by
  unfold tryNest
  split
  · exact .pause
  · next hh =>
    simp only [Bool.or_eq_true, Bool.not_eq_true', not_or, Bool.not_eq_false] at hh
    exact .step (.op (tryStep_op hh.2) fun hd => hh.1 (heldB_of hd))

/-- The run of a list of choices. -/
def tryNests : List Nat → Nest → Nest
  | [], N => N
  | i :: l, N => tryNests l (tryNest i N)

theorem tryNests_ok : ∀ (l : List Nat) {N : Nest}, NReached W g n N → NReached W g n (tryNests l N)
  | [], _, h => h
  | i :: l, N, h => by
    refine tryNests_ok l ?_
    have := tryNest_ok W g n i N
    generalize tryNest i N = D at this
    cases this with
    | pause => exact h
    | step hs => exact .step h hs

theorem tryNests_append : ∀ (l l' : List Nat) (N : Nest), tryNests (l ++ l') N = tryNests l' (tryNests l N)
  | [], _, _ => rfl
  | i :: l, l', N => tryNests_append l l' (tryNest i N)

/-- `Marshal` of a `[]Loud`. -/
def callL : Call := ⟨shopH nodeCells, shopW.order, some (46, 108), [], none⟩

/-- `Marshal` of the pointer to the first node. -/
def callP : Call := ⟨shopH nodeCells, shopW.order, some (129, 500), [], none⟩

/-- `Marshal` of the strings has come to its first element, and the goroutine that appends nodes
has begun to generate their instruction. -/
def nestA : Nest := tryNests (List.replicate 8 0 ++ List.replicate 4 1)
  ⟨⟨{ Shared.init with arrs := [b! "x=" ++ [9]] }, [⟨callL, callL.marshal shopW 20 9, [], []⟩, ⟨callB, callB.append shopW 20 9 ⟨0, 2⟩, [], []⟩]⟩, [none, none], [0, 0]⟩

theorem nestA_reached : NReached shopW 20 9 nestA := by
  refine tryNests_ok _ ?_
  exact .step (.step .init (.marshal (c := callL) (u := none) rfl trivial)) (.append (c := callB) (dst := b! "x=") (u := none) [9] rfl trivial)

def readsB (N : Nest) (i : Nat) : Bool := match N.conf.thr[i]? with
  | some T => (match T.prog with | .op (.scratch _) _ => true | _ => false)
  | none => false

theorem inMethod_of {i : Nat} (h : readsB N i = true) : N.InMethod i := by
  unfold readsB at h
  split at h
  · next T hT =>
    split at h
    · next s k hp => exact ⟨T, s, k, hT, hp⟩
    · cases h
  · cases h

/-- The method of the first element calls `Marshal`. -/
def nestB : Nest := ⟨⟨nestA.conf.sh, nestA.conf.thr ++ [⟨callP, callP.marshal shopW 20 9, [], []⟩]⟩, nestA.up ++ [some (0, 0)], nestA.ended ++ [0]⟩

theorem nestB_reached : NReached shopW 20 9 nestB :=
  .step nestA_reached (.marshal (c := callP) (u := some (0, 0)) rfl ⟨inMethod_of (by decide +kernel), by decide +kernel⟩)

/-- The call of the method runs until it waits; then all take turns. -/
def nestPlan : List Nat := List.replicate 9 2 ++ rounds 60

/-- After `k` choices. -/
def nested (k : Nat) : Nest := tryNests (nestPlan.take k) nestB

/-- The first call is held up by the third, which was made in its method, and that one waits for the second. -/
example : heldB (nested 9) 0 = true ∧ waiting (nested 9).conf = [false, false, true] := by decide +kernel

/-- All return. -/
theorem nested_results : results (nested 189).conf =
    [some (.ret (some (b! "[[1,2],[1,2]]")) none),
     some (.ret (some (b! "x={\"N\":1,\"Next\":{\"N\":2,\"Next\":null}}")) none),
     some (.ret (some (b! "{\"N\":1,\"Next\":{\"N\":2,\"Next\":null}}")) none)] := by
  decide +kernel

theorem nested_reached (k : Nat) : NReached shopW 20 9 (nested k) := tryNests_ok _ nestB_reached

theorem nested_up (k : Nat) : (nested k).up = [none, none, some (0, 0)] := by
  have keep : ∀ (l : List Nat) (N : Nest), (tryNests l N).up = N.up := by
    intro l
    induction l with
    | nil => exact fun _ => rfl
    | cons i l ih =>
      intro N
      refine (ih _).trans ?_
      unfold tryNest
      split <;> rfl
  refine (keep _ _).trans ?_
  show nestA.up ++ [some (0, 0)] = _
  have : nestA.up = [none, none] := (keep _ _).trans rfl
  rw [this]; rfl

theorem nested_end {k : Nat} (hk : 189 ≤ k) : nested k = nested 189 := by
  have : nestPlan.length = 189 := by decide +kernel
  unfold nested
  rw [List.take_of_length_le (by omega), List.take_of_length_le (by omega)]

theorem nested_tick (k : Nat) : NTick shopW 20 9 (nested k) (nested (k + 1)) := by
  unfold nested
  by_cases hk : k < nestPlan.length
  · rw [List.take_add_one, tryNests_append, List.getElem?_eq_getElem hk]
    exact tryNest_ok _ _ _ _ _
  · rw [List.take_of_length_le (by omega), List.take_of_length_le (by omega)]
    exact .pause

theorem nested_returned {T : Thread} (hT : T ∈ (nested 189).conf.thr) : ∃ out, T.prog = .ret out := by
  have h : (nested 189).conf.thr.all (fun T => match T.prog with | .ret _ => true | _ => false) = true := by decide +kernel
  have := List.all_eq_true.mp h T hT
  revert this
  cases T.prog with
  | ret out => exact fun _ => ⟨out, rfl⟩
  | crash => intro h; cases h
  | op o k => intro h; cases h

theorem tryNests_honest : ∀ (l : List Nat) (N : Nest), AllHonest N.conf → AllHonest (tryNests l N).conf
  | [], _, h => h
  | i :: l, N, h => by
    refine tryNests_honest l _ ?_
    unfold tryNest
    split
    · exact h
    · exact honest_try [i] _ h

theorem nested_honest (k : Nat) : AllHonest (nested k).conf := by
  refine tryNests_honest _ _ fun T hT => ?_
  rcases List.mem_append.mp hT with h | h
  · refine tryNests_honest _ _ (fun T hT => ?_) T h
    simp only [List.mem_cons, List.not_mem_nil, or_false] at hT
    rcases hT with rfl | rfl <;> exact List.forall_mem_singleton.mpr (shop_honest nodeCells)
  · simp only [List.mem_cons, List.not_mem_nil, or_false] at h
    subst h
    exact List.forall_mem_singleton.mpr (shop_honest nodeCells)

theorem tryNests_plain : ∀ (l : List Nat) (N : Nest), Plain N.conf → Plain (tryNests l N).conf
  | [], _, h => h
  | i :: l, N, h => by
    refine tryNests_plain l _ ?_
    unfold tryNest
    split
    · exact h
    · exact plain_try [i] _ h

theorem nested_plain (k : Nat) : Plain (nested k).conf := by
  refine tryNests_plain _ _ fun T hT => ?_
  rcases List.mem_append.mp hT with h | h
  · refine tryNests_plain _ _ (fun T hT => ?_) T h
    simp only [List.mem_cons, List.not_mem_nil, or_false] at hT
    rcases hT with rfl | rfl <;> rfl
  · simp only [List.mem_cons, List.not_mem_nil, or_false] at h
    subst h
    rfl

/-- The hypotheses of the theorems are met. -/
theorem nested_fair : FairNest shopW 20 9 nested where
  start := nested_reached 0
  steps := nested_tick
  honest := nested_honest
  fair i k h := by
    exfalso
    obtain ⟨⟨C', hs⟩, -⟩ := h (max k 189) (Nat.le_max_left _ _)
    rw [nested_end (Nat.le_max_right _ _)] at hs
    obtain ⟨hi, -⟩ := hs
    obtain ⟨out, ho⟩ := nested_returned (List.mem_of_getElem? hi)
    cases ho
  finite i := ⟨3, fun k j hw => by
    rw [nested_up] at hw
    cases hw with
    | one h => exact (List.getElem?_eq_some_iff.mp h).1
    | deep h _ => exact (List.getElem?_eq_some_iff.mp h).1⟩
  finite' := plain_finite nested_plain

theorem nested_alive : Alive fun k => (nested k).conf := by
  intro k T hT hc
  obtain ⟨i, hi, rfl⟩ := List.getElem_of_mem hT
  have : ∀ m, (nested (k + m)).conf.thr[i]? = some (nested k).conf.thr[i] := by
    intro m
    induction m with
    | zero => exact List.getElem?_eq_getElem hi
    | succ m ih => exact crash_stays (ntick_tick (nested_tick (k + m))) ih hc
  have h := this 189
  rw [nested_end (by omega)] at h
  obtain ⟨out, ho⟩ := nested_returned (List.mem_of_getElem? h)
  simp only at hc
  rw [hc] at ho; cases ho

example (k : Nat) (T : Thread) (hi : (nested k).conf.thr[0]? = some T) : ∃ m T' out, k ≤ m ∧ (nested m).conf.thr[0]? = some T' ∧ Returned T' out := by
  obtain ⟨m, T', out, h1, h2, -, h3, -⟩ := C64_fair toyFmt_contract nested_fair nested_alive hi
  exact ⟨m, T', out, h1, h2, h3⟩

/-! ## Calls made in the goroutine of the method -/

theorem view_of {σ : Shared} {hs : Parts} {o : Option Nat} {out : Out} {R : Ret} (m : MemInv σ hs) (h : OutIs (hs o) out R) : out.view σ = some R := by
  unfold OutIs at h
  split at h
  · rw [h]; rfl
  · obtain ⟨rfl, ⟨c, h1, h2, h3⟩, -⟩ := h
    simp only [Out.view, Shared.bytes, m.arrIn _ _ _ h1, Option.map_some, h3]
  · rfl
  · rfl
  · exact h.elim

/-- A result does not depend on the bound. -/
theorem alone_bound {c : Call} (h : c.alone W n ≠ .nofuel) {m : Nat} (hm : n ≤ m) : c.alone W m = c.alone W n := by
  have mono : ∀ {o : EncOpts} {x : TId × Addr} {dst : Bytes}, appendJSON (c.world W) (run (c.world W) c.heap o n) [] (some x) dst ≠ .nofuel →
      appendJSON (c.world W) (run (c.world W) c.heap o m) [] (some x) dst = appendJSON (c.world W) (run (c.world W) c.heap o n) [] (some x) dst := by
    intro o x dst h1
    simp only [appendJSON] at h1 ⊢
    cases hi : instrFor (c.world W).E (c.world W).tfuel x.1 with
    | none => rfl
    | some i => rw [hi] at h1; exact run_mono hm h1
  revert h
  unfold Call.alone marshalOpts appendOpts marshalJSON appendTop
  cases c.value with
  | none => cases c.dst <;> exact fun _ => rfl
  | some x =>
    cases prepare c.opts with
    | error e => cases c.dst <;> exact fun _ => rfl
    | ok o =>
      cases c.dst with
      | none =>
        intro h
        simp only at h ⊢
        rw [mono]
        intro e; rw [e] at h; exact h rfl
      | some dst =>
        intro h
        simp only at h ⊢
        rw [mono]
        intro e; rw [e] at h; exact h rfl

/-- C64: what a call returns to the method that made it, in the same goroutine, is what it returns
alone, whatever has been going on in between, and also when it appends to the destination of
the call in whose method it is made. -/
theorem C64_inner {C : Conf} (hl : FormatContract W.fmt) (hr : Reached W g n C) (hh : AllHonest C) {T : Thread} (hT : T ∈ C.thr) {b : Nat} {c : Call} {l : List Nat} {out : Out} {k : Unit → Prog Out}
    (hp : T.prog = .op (.back b c l out) k) : out.view C.sh = some (c.alone W b) ∧ ∀ m, b ≤ m → c.alone W m = c.alone W b := by
  obtain ⟨K, hs, ws, m⟩ := reached_inv (contract_long hl) hr hh
  obtain ⟨i, hi, rfl⟩ := List.getElem_of_mem hT
  have hm := m.meets i _ (List.getElem?_eq_getElem hi)
  rw [hp] at hm
  obtain ⟨-, ho, -⟩ := hm K (.refl K)
  refine ⟨view_of m.mem ho, fun m' => alone_bound fun e => ?_⟩
  rw [e] at ho
  unfold OutIs at ho
  split at ho <;> first | exact ho.elim | (rename_i h; cases h)

/-- The method that the call `i` is in calls `Marshal`. -/
def tryInner (W : World) (g n i : Nat) (c : Call) (C : Conf) : Conf :=
  match C.thr[i]? with
  | some T => (match T.prog with | .op (.scratch s) k => ⟨C.sh, C.thr.set i (T.during n c (c.marshal W g n) s k)⟩ | _ => C)
  | none => C

theorem tryInner_ok {C : Conf} {i : Nat} {c : Call} (hd : c.dst = none) (hc : c.sound W n) (hr : Reached W g n C) : Reached W g n (tryInner W g n i c C) := by
  unfold tryInner
  split
  · next T hT =>
    split
    · next s k hp => exact .step hr (.method (.innerMarshal hT hp hd hc))
    · exact hr
  · exact hr

/-- It leaves `x` behind the end of its destination, and calls `Append` with the destination and `x`. -/
def tryDst (W : World) (g n i : Nat) (c : Call) (x : Bytes) (C : Conf) : Conf :=
  match C.thr[i]? with
  | some T => (match T.prog with
    | .op (.scratch s) k => (match C.sh.arrs[s.arr]? with
      | some b =>
        if s.len + x.length ≤ b.length ∧ c.dst = some (b.take s.len ++ x) then
          ⟨{ C.sh with arrs := C.sh.arrs.set s.arr (b.take s.len ++ x ++ b.drop (s.len + x.length)) }, C.thr.set i (T.during n c (c.append W g n ⟨s.arr, s.len + x.length⟩) s k)⟩
        else C
      | none => C)
    | _ => C)
  | none => C

theorem tryDst_ok {C : Conf} {i : Nat} {c : Call} {x : Bytes} (hc : c.sound W n) (hr : Reached W g n C) :
    Reached W g n (tryDst W g n i c x C) := by
  unfold tryDst
  split
  · next T hT =>
    split
    · next s k hp =>
      split
      · next b hb =>
        split
        · next hl =>
          obtain ⟨hl, hd⟩ := hl
          have e1 : (b.take s.len ++ x ++ b.drop (s.len + x.length)).length = b.length := by simp; omega
          have e2 : (b.take s.len ++ x ++ b.drop (s.len + x.length)).take s.len = b.take s.len := by
            rw [List.append_assoc, List.take_append_of_le_length (by simp; omega), List.take_take, Nat.min_self]
          refine .step (.step hr (.method (.scribble hT hp hb e1 e2))) (.method (.innerDst (m := s.len + x.length) hT hp ?_ (by omega) (by rw [e1]; exact hl) ?_ hc))
          · simp [(List.getElem?_eq_some_iff.mp hb).1]
          · rw [hd, List.take_left' (by simp; omega)]
        · exact hr
      · exact hr
    · exact hr
  · exact hr

/-- What the calls return to the methods that made them. -/
def returning (C : Conf) : List (Option Ret) :=
  C.thr.map fun T => match T.prog with | .op (.back _ _ _ out) _ => out.view C.sh | _ => none

theorem callP_sound : callP.sound shopW 9 := by unfold Call.sound; decide +kernel

/-- The method of the first element calls `Marshal` while another goroutine generates what it needs. -/
def innerA : Conf := tryInner shopW 20 9 0 callP nestA.conf

theorem innerA_reached : Reached shopW 20 9 innerA := tryInner_ok rfl callP_sound (nreached_reached nestA_reached)

/-- It waits for the other goroutine. -/
example : waiting (trySteps (List.replicate 9 0) innerA) = [true, false] := by decide +kernel

/-- The call returns to the method. -/
example : returning (trySteps (List.replicate 9 0 ++ List.replicate 30 1 ++ List.replicate 30 0) innerA) =
    [some (.ret (some (b! "{\"N\":1,\"Next\":{\"N\":2,\"Next\":null}}")) none), none] := by decide +kernel

/-- Both calls return. -/
example : results (trySteps (List.replicate 9 0 ++ rounds 100) innerA) =
    [some (.ret (some (b! "[[1,2],[1,2]]")) none), some (.ret (some (b! "x={\"N\":1,\"Next\":{\"N\":2,\"Next\":null}}")) none)] := by decide +kernel

/-- The method of the first element has started a goroutine that calls `Marshal`, and calls it also itself. -/
def nestC : Nest := ⟨tryInner shopW 20 9 0 callP nestB.conf, nestB.up, nestB.ended⟩

theorem nestC_reached : NReached shopW 20 9 nestC := by
  unfold nestC tryInner
  split
  · next T hT =>
    split
    · next s k hp => exact .step nestB_reached (.method (.innerMarshal hT hp rfl callP_sound))
    · exact nestB_reached
  · exact nestB_reached

/-- The call in the goroutine of the method waits for the generating goroutine, then it returns to the method while the
goroutine that the method has started is still running; from then on the method is held up. -/
example : nestC.depth 0 = 1 ∧ heldB nestC 0 = false ∧ waiting (tryNests (List.replicate 9 0) nestC).conf = [true, false, false] ∧
    returning (tryNests (List.replicate 9 0 ++ List.replicate 30 1 ++ List.replicate 30 0) nestC).conf =
      [some (.ret (some (b! "{\"N\":1,\"Next\":{\"N\":2,\"Next\":null}}")) none), none, none] ∧
    (tryNests (List.replicate 9 0 ++ List.replicate 30 1 ++ List.replicate 40 0) nestC).ended = [1, 0, 0] ∧
    heldB (tryNests (List.replicate 9 0 ++ List.replicate 30 1 ++ List.replicate 40 0) nestC) 0 = true := by decide +kernel

/-- All return. -/
example : results (tryNests (List.replicate 9 0 ++ rounds 100) nestC).conf =
    [some (.ret (some (b! "[[1,2],[1,2]]")) none),
     some (.ret (some (b! "x={\"N\":1,\"Next\":{\"N\":2,\"Next\":null}}")) none),
     some (.ret (some (b! "{\"N\":1,\"Next\":{\"N\":2,\"Next\":null}}")) none)] := by decide +kernel

theorem innerA_honest (l : List Nat) : AllHonest (trySteps l innerA) := by
  refine honest_try l _ ?_
  have hA : AllHonest nestA.conf := tryNests_honest _ _ fun T hT => by
    simp only [List.mem_cons, List.not_mem_nil, or_false] at hT
    rcases hT with rfl | rfl <;> exact List.forall_mem_singleton.mpr (shop_honest nodeCells)
  unfold innerA tryInner
  split
  · next T hT =>
    split
    · next s k hp =>
      intro T' hT' c hc
      rcases List.mem_or_eq_of_mem_set hT' with h | rfl
      · exact hA T' h c hc
      · have hT := hA T (List.mem_of_getElem? hT)
        rcases List.mem_cons.mp hc with rfl | hc
        · exact hT _ List.mem_cons_self
        · rcases List.mem_cons.mp hc with rfl | hc
          · exact shop_honest nodeCells
          · exact hT c (List.mem_cons_of_mem _ hc)
    · exact hA
  · exact hA

/-- The theorem applies at every moment. -/
example (l : List Nat) {T : Thread} (hT : T ∈ (trySteps l innerA).thr) {b : Nat} {c : Call} {l' : List Nat} {out : Out} {k : Unit → Prog Out} (hp : T.prog = .op (.back b c l' out) k) :
    out.view (trySteps l innerA).sh = some (c.alone shopW b) :=
  (C64_inner toyFmt_contract (trySteps_ok l innerA_reached) (innerA_honest l) hT hp).1

/-- `Append` of the first node to `[x`. -/
def callX : Call := { callP with dst := some (b! "[x") }

/-- The method of the first element writes `x` behind its destination `[` and calls `Append` with both. -/
def innerB : Conf := tryDst shopW 20 9 0 callX (b! "x") nestA.conf

theorem innerB_reached : Reached shopW 20 9 innerB :=
  tryDst_ok (by unfold Call.sound; decide +kernel) (nreached_reached nestA_reached)

/-- The call returns to the method. -/
example : returning (trySteps (List.replicate 9 0 ++ List.replicate 30 1 ++ List.replicate 26 0) innerB) =
    [some (.ret (some (b! "[x{\"N\":1,\"Next\":{\"N\":2,\"Next\":null}}")) none), none] := by decide +kernel

/-- Both calls return. -/
example : results (trySteps (List.replicate 9 0 ++ rounds 100) innerB) =
    [some (.ret (some (b! "[[1,2],[1,2]]")) none), some (.ret (some (b! "x={\"N\":1,\"Next\":{\"N\":2,\"Next\":null}}")) none)] := by decide +kernel

/-! ## A panic in a call made by a method -/

/-- `Marshal` of the strings, where the methods panic. -/
def callQ : Call := { callL with heap := { callL.heap with meth := fun _ _ _ _ _ _ => .panic } }

theorem callQ_panics : callQ.alone shopW 9 = .panic := by decide +kernel

/-- The method of the first element calls it. -/
def innerC : Conf := tryInner shopW 20 9 0 callQ nestA.conf

theorem innerC_reached : Reached shopW 20 9 innerC := tryInner_ok rfl (by rw [Call.sound, callQ_panics]; simp) (nreached_reached nestA_reached)

/-- What the goroutines hold and the buffers in the pool. -/
def holding (C : Conf) : List (List Nat) × List Nat := (C.thr.map (·.held), C.sh.pool .buf)

/-- The call has taken a second buffer, and panics. -/
example : returning (trySteps (List.replicate 7 0) innerC) = [some .panic, none] ∧ holding (trySteps (List.replicate 7 0) innerC) = ([[1, 0], []], []) := by decide +kernel

/-- The method recovers: the buffer is lost, the one of the call around it is not. -/
example : holding (trySteps (List.replicate 8 0) innerC) = ([[0], []], []) := by decide +kernel

/-- Both calls return, and the buffer is back. -/
example : results (trySteps (rounds 100) innerC) =
      [some (.ret (some (b! "[[1,2],[1,2]]")) none), some (.ret (some (b! "x={\"N\":1,\"Next\":{\"N\":2,\"Next\":null}}")) none)] ∧
    holding (trySteps (rounds 100) innerC) = ([[], []], [0]) := by decide +kernel

end Jettison.Props
