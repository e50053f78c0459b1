import Verif.Proofs.Refine
import Verif.Spec.Select

/-!
# What stands in an interface

`appendJSON` on an interface value runs the instruction of its dynamic type on the
value it holds.
-/

namespace Jettison.Proofs
open Jettison Jettison.Spec Jettison.Model

variable {W : World} {H : Heap} {M : MethV} {o : EncOpts}

theorem entry (R : Ready W H M) {t : TId} {w : Addr} {v : Val} (hx : ReprE W.E H.mem (some (t, w)) (.iface t v)) (n : Nat) :
    (instrFor W.E W.tfuel t = none ∧ ∀ path dst, appendJSON W (run W H o n) path (some (t, w)) dst = .nofuel) ∨
    ∃ i p m, Stands W H t (isPtrK (W.E t).kind) false i p v ∧ m ≤ n ∧
      ∀ path dst, appendJSON W (run W H o n) path (some (t, w)) dst = run W H o m path i p dst := by
  cases hi : instrFor W.E W.tfuel t with
  | none => exact .inl ⟨rfl, fun path dst => by simp only [appendJSON, hi]⟩
  | some j =>
    refine .inr ?_
    simp only [instrFor] at hi
    split at hi
    · simp at hi
    · next i hmade =>
      obtain ⟨rank, hrank, hlt⟩ := R.nest
      have hdir := isInlined_iff hrank W.tfuel t (hlt t)
      have hi' := hi
      simp only [Option.some.injEq] at hi
      have hj : instrFor W.E W.tfuel t = some j := by simp only [instrFor, hmade]; exact hi'
      cases hx with
      | direct hd hr =>
        rw [if_pos (hdir.mpr hd)] at hi
        subst hi
        refine ⟨i, .tmp w, n - 1, ⟨⟨_, hmade⟩, hr, fun h => .inl h⟩, by omega, fun path dst => ?_⟩
        simp only [appendJSON, hj]
        cases n with
        | zero => rfl
        | succ n => rfl
      | indirect hd hr =>
        rw [if_neg (fun h => pointed_not_inlined hd (hdir.mp h))] at hi
        subst hi
        exact ⟨i, .heap w, n, ⟨⟨_, hmade⟩, hr, fun h => .inl h⟩, by omega, fun path dst => by simp only [appendJSON, hj]⟩

/-- Conversely every value held by an interface stands somewhere. -/
theorem entry_stands (R : Ready W H M) {t : TId} {w : Addr} {v : Val} (hx : ReprE W.E H.mem (some (t, w)) (.iface t v))
    {i : Instr} (hi : newInstruction W.E W.tfuel t (isPtrK (W.E t).kind) false = some i) :
    ∃ p, Stands W H t (isPtrK (W.E t).kind) false i p v := by
  cases hx with
  | direct hd hr => exact ⟨.tmp w, ⟨_, hi⟩, hr, fun h => .inl h⟩
  | indirect hd hr => exact ⟨.heap w, ⟨_, hi⟩, hr, fun h => .inl h⟩

end Jettison.Proofs
