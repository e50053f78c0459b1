import Verif.Spec.Fields

/-! # Specification: when the search keeps the routes apart -/

namespace Jettison.Spec
open Jettison.Model (TId Env)

/-- The capacity of a slice built by `n` appends of one element, starting from the
nil slice, when a full slice of capacity `c` grows to `grow c`. -/
def capSeq (grow : Nat → Nat) : Nat → Nat
  | 0 => 0
  | n + 1 => if n < capSeq grow n then capSeq grow n else max (grow (capSeq grow n)) (n + 1)

/-- Every struct whose first path has a length at which the route has spare capacity
promotes at most one struct. -/
def NoSpareFork (letter digit : Nat → Bool) (grow : Nat → Nat) (E : Env) (t : TId) : Prop :=
  ∀ p u, Canonical letter digit E t p u → p.length < capSeq grow p.length →
    ∀ fs (i j : Nat) sf sf' v v' ptr ptr', HasFields E u fs → fs[i]? = some sf → fs[j]? = some sf' →
      Promotes letter digit E sf v ptr → Promotes letter digit E sf' v' ptr' → i = j

/-! ## The rule for every type graph -/

/-- The array that holds entry `j` of a route was made when entry `m` was appended:
the slice was full at length `m` and has had spare capacity since. -/
def MadeAt (grow : Nat → Nat) (j m : Nat) : Prop :=
  m ≤ j ∧ capSeq grow m ≤ m ∧ ∀ n, m < n → n ≤ j → n < capSeq grow n

/-- The path `a` is the first of its length that leads to its struct by one step from
the first path of a struct; `s` is the offset of the last step and whether it goes
through a pointer. -/
def Queued (letter digit : Nat → Bool) (E : Env) (t : TId) (a : List Nat) (s : Nat × Bool) : Prop :=
  ∃ p w fs i sf v ptr, a = p ++ [i] ∧ Canonical letter digit E t p w ∧ HasFields E w fs ∧ fs[i]? = some sf ∧
    Promotes letter digit E sf v ptr ∧ s = (sf.offset, ptr) ∧
    ∀ b, CanonicalPush letter digit E t b v → b.length = a.length → b = a ∨ PathLt a b

/-- The last queued path of length `j + 1` with the same first `m + 1` steps as `a`,
and its last step. -/
def LastQueued (letter digit : Nat → Bool) (E : Env) (t : TId) (a : List Nat) (m j : Nat) (c : List Nat) (s : Nat × Bool) : Prop :=
  (Queued letter digit E t c s ∧ c.length = j + 1 ∧ c.take (m + 1) = a.take (m + 1)) ∧
    ∀ c' s', Queued letter digit E t c' s' → c'.length = j + 1 → c'.take (m + 1) = a.take (m + 1) → c' = c ∨ PathLt c' c

/-- What is recorded as step `j` of the path `a`: the step of the last path that
shares the array. -/
def RecordedStep (letter digit : Nat → Bool) (grow : Nat → Nat) (E : Env) (t : TId) (a : List Nat) (j : Nat) (s : Nat × Bool) : Prop :=
  ∃ m c, MadeAt grow j m ∧ LastQueued letter digit E t a m j c s

/-- The steps recorded for the struct at path `p` are its own. -/
def OwnRoute (letter digit : Nat → Bool) (grow : Nat → Nat) (E : Env) (t : TId) (p : List Nat) : Prop :=
  ∀ u q, Reaches letter digit E t p u q → ∀ j m c s, j < p.length → MadeAt grow j m →
    LastQueued letter digit E t p m j c s → q[j]? = some s

/-- Every member of the struct type is declared by a struct whose recorded steps are
its own. -/
def RoutesApart (letter digit : Nat → Bool) (grow : Nat → Nat) (E : Env) (t : TId) : Prop :=
  ∀ m p i, ChosenField letter digit E t m → m.path = p ++ [i] → OwnRoute letter digit grow E t p

end Jettison.Spec
