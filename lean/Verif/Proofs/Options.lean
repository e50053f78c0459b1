import Verif.Spec.Options

/-! # Options: the effect of a list of options -/

namespace Jettison.Proofs
open Jettison.Model Jettison.Spec

theorem mask_and (f g : Flag) : (f.mask &&& g.mask ≠ 0) ↔ f = g := by
  cases f <;> cases g <;> decide

theorem u64_and_or (x y z : UInt64) : (x ||| y) &&& z = (x &&& z) ||| (y &&& z) := by
  rw [← UInt64.toBitVec_inj]
  exact BitVec.and_or_distrib_right

theorem bmHas_set (b : UInt64) (f g : Flag) : bmHas (bmSet b f) g = (bmHas b g || decide (f = g)) := by
  unfold bmHas bmSet
  rw [u64_and_or]
  by_cases h1 : b &&& g.mask = 0 <;> by_cases h2 : f = g
  · have := (mask_and f g).2 h2
    simp [h1, h2]
    simpa [h2] using this
  · have : f.mask &&& g.mask = 0 := by
      by_cases h : f.mask &&& g.mask = 0
      · exact h
      · exact absurd ((mask_and f g).1 h) h2
    simp [h1, h2, this]
  · simp only [ne_eq, h1, not_false_eq_true, decide_true, Bool.true_or, decide_eq_true_eq]
    intro h; exact h1 (UInt64.or_eq_zero_iff.1 h).1
  · simp only [ne_eq, h1, not_false_eq_true, decide_true, Bool.true_or, decide_eq_true_eq]
    intro h; exact h1 (UInt64.or_eq_zero_iff.1 h).1

/-- The flag mentioned by an option. -/
def flagOf : Opt → Option Flag | .flag f => some f | _ => none
def layoutOf : Opt → Option Bytes | .timeLayout l => some l | _ => none
def durOf : Opt → Option Int | .durationFormat f => some f | _ => none
def ctxOf : Opt → Option (Option Ctx) | .withContext c => some c | _ => none
def allowOf : Opt → Option (List Bytes) | .allowList l => some l | _ => none
def denyOf : Opt → Option (List Bytes) | .denyList l => some l | _ => none

theorem apply_append (o : EncOpts) (a b : List (Option Opt)) : o.apply (a ++ b) = (o.apply a).apply b := by
  induction a generalizing o with
  | nil => rfl
  | cons x a ih => cases x <;> simp [EncOpts.apply, ih]

/-- Last value in a list of options, `d` when there is none. -/
def lastOf {α : Type} (f : Opt → Option α) (d : α) (l : List (Option Opt)) : α :=
  ((l.filterMap id).filterMap f).getLast?.getD d

theorem lastOf_none {α : Type} (f : Opt → Option α) (d : α) (l : List (Option Opt)) :
    lastOf f d (none :: l) = lastOf f d l := rfl

theorem lastOf_cons {α : Type} (f : Opt → Option α) (d : α) (x : Opt) (l : List (Option Opt)) :
    lastOf f d (some x :: l) = lastOf f ((f x).getD d) l := by
  unfold lastOf
  simp only [List.filterMap_cons_some (f := id) (a := some x) (b := x) rfl]
  cases h : f x with
  | none => rw [List.filterMap_cons_none h]; rfl
  | some y =>
    rw [List.filterMap_cons_some h, List.getLast?_cons]; rfl

theorem apply_layout (l : List (Option Opt)) (o : EncOpts) :
    (o.apply l).timeLayout = lastOf layoutOf o.timeLayout l := by
  induction l generalizing o with
  | nil => rfl
  | cons x l ih =>
    cases x with
    | none => rw [lastOf_none]; exact ih o
    | some x => rw [lastOf_cons, EncOpts.apply, ih]; cases x <;> rfl

theorem apply_dur (l : List (Option Opt)) (o : EncOpts) :
    (o.apply l).durationFmt = lastOf durOf o.durationFmt l := by
  induction l generalizing o with
  | nil => rfl
  | cons x l ih =>
    cases x with
    | none => rw [lastOf_none]; exact ih o
    | some x => rw [lastOf_cons, EncOpts.apply, ih]; cases x <;> rfl

theorem apply_ctx (l : List (Option Opt)) (o : EncOpts) :
    (o.apply l).ctx = lastOf ctxOf o.ctx l := by
  induction l generalizing o with
  | nil => rfl
  | cons x l ih =>
    cases x with
    | none => rw [lastOf_none]; exact ih o
    | some x => rw [lastOf_cons, EncOpts.apply, ih]; cases x <;> rfl

theorem apply_allow (l : List (Option Opt)) (o : EncOpts) :
    (o.apply l).allowList = lastOf (fun x => (allowOf x).map some) o.allowList l := by
  induction l generalizing o with
  | nil => rfl
  | cons x l ih =>
    cases x with
    | none => rw [lastOf_none]; exact ih o
    | some x => rw [lastOf_cons, EncOpts.apply, ih]; cases x <;> rfl

theorem apply_deny (l : List (Option Opt)) (o : EncOpts) :
    (o.apply l).denyList = lastOf (fun x => (denyOf x).map some) o.denyList l := by
  induction l generalizing o with
  | nil => rfl
  | cons x l ih =>
    cases x with
    | none => rw [lastOf_none]; exact ih o
    | some x => rw [lastOf_cons, EncOpts.apply, ih]; cases x <;> rfl

theorem apply_flag (l : List (Option Opt)) (o : EncOpts) (f : Flag) :
    bmHas (o.apply l).flags f = true ↔ bmHas o.flags f = true ∨ some (Opt.flag f) ∈ l := by
  induction l generalizing o with
  | nil => simp [EncOpts.apply]
  | cons x l ih =>
    cases x with
    | none => rw [EncOpts.apply, ih]; simp
    | some x =>
      rw [EncOpts.apply, ih]
      cases x with
      | flag g =>
        simp only [Opt.run, bmHas_set, Bool.or_eq_true, decide_eq_true_eq, List.mem_cons, Option.some.injEq, Opt.flag.injEq]
        constructor
        · rintro ((h | h) | h)
          · exact Or.inl h
          · exact Or.inr (Or.inl h.symm)
          · exact Or.inr (Or.inr h)
        · rintro (h | h | h)
          · exact Or.inl (Or.inl h)
          · exact Or.inl (Or.inr h.symm)
          · exact Or.inr h
      | _ => simp [Opt.run]

theorem lastSetting_none {α : Type} (f : Opt → Option α) (d : α) (l : List (Option Opt)) :
    lastSetting f d (none :: l) = lastSetting f d l := by
  simp [lastSetting, List.findSome?_append]

theorem lastSetting_cons {α : Type} (f : Opt → Option α) (d : α) (x : Opt) (l : List (Option Opt)) :
    lastSetting f d (some x :: l) = lastSetting f ((f x).getD d) l := by
  simp only [lastSetting, List.reverse_cons, List.findSome?_append]
  cases (List.findSome? (fun x => x.bind f) l.reverse) with
  | some z => simp
  | none => cases h : f x <;> simp [h]

theorem lastSetting_eq {α : Type} (f : Opt → Option α) (d : α) (l : List (Option Opt)) :
    lastSetting f d l = lastOf f d l := by
  induction l generalizing d with
  | nil => rfl
  | cons x l ih =>
    cases x with
    | none => rw [lastSetting_none, lastOf_none, ih]
    | some x => rw [lastSetting_cons, lastOf_cons, ih]

end Jettison.Proofs
