import Verif.Proofs.Econ
import Verif.Model.Nested

/-!
# Where calls made by methods return

The program of a call never returns to a method by itself (`noBack_judge`): operations `back` stand only
behind calls made by methods, one for each (`Shape`).
-/

namespace Jettison.Proofs
open Jettison.Model

def isBack : Op → Bool
  | .back _ _ _ _ => true
  | _ => false

/-- No operation `back`. -/
def NoBack {α : Type} : Prog α → Prop
  | .ret _ => True
  | .crash => True
  | .op o k => isBack o = false ∧ ∀ x, NoBack (k x)

theorem noBack_call {o : Op} (ho : isBack o = false) : NoBack o.call := ⟨ho, fun _ => trivial⟩

theorem noBack_bind {α β : Type} {f : α → Prog β} (hf : ∀ a, NoBack (f a)) : ∀ {p : Prog α}, NoBack p → NoBack (p >>= f)
  | .ret a, _ => hf a
  | .crash, _ => trivial
  | .op _ k, h => ⟨h.1, fun x => noBack_bind hf (p := k x) (h.2 x)⟩

theorem noBack_ret {α : Type} (a : α) : NoBack (.ret a) := trivial

theorem noBack_seq {α β : Type} {p : Prog α} {f : α → Prog β} (hp : NoBack p) (hf : ∀ a, NoBack (f a)) : NoBack (p >>= f) := noBack_bind hf hp

theorem noBack_fields (W : World) (t : TId) : NoBack (cachedFields W t) := by
  refine noBack_seq (noBack_call rfl) fun x => ?_
  split
  · exact noBack_ret _
  · split
    · trivial
    · exact noBack_call rfl

theorem noBack_empty (W : World) (t : TId) : NoBack (cachedEmptyFuncOf W t) := by
  refine noBack_seq (noBack_call rfl) fun x => ?_
  split
  · exact noBack_ret _
  · exact noBack_call rfl

theorem noBack_newField {W : World} {gen : TId → Bool → Bool → Prog CInstr} (hg : ∀ t ca q, NoBack (gen t ca q)) (t : TId) (ca : Bool) (f : Fld) :
    NoBack (newFieldInstrP W gen t ca f) := by
  unfold newFieldInstrP
  split
  · trivial
  · refine noBack_seq (hg _ _ _) fun i => ?_
    split
    · exact noBack_seq (noBack_empty _ _) fun e => noBack_ret _
    · exact noBack_ret _

theorem noBack_newFields {W : World} {gen : TId → Bool → Bool → Prog CInstr} (hg : ∀ t ca q, NoBack (gen t ca q)) (t : TId) (ca : Bool) :
    ∀ fs, NoBack (newFieldInstrsP W gen t ca fs)
  | [] => noBack_ret _
  | f :: fs => noBack_seq (noBack_newField hg t ca f) fun _ => noBack_seq (noBack_newFields hg t ca fs) fun _ => noBack_ret _

theorem noBack_structFields {W : World} {gen : TId → Bool → Bool → Prog CInstr} (hg : ∀ t ca q, NoBack (gen t ca q)) (t : TId) (ca : Bool) :
    NoBack (newStructFieldsP W gen t ca) := by
  unfold newStructFieldsP
  split
  · exact noBack_ret _
  · exact noBack_seq (noBack_fields _ _) fun fs => noBack_seq (noBack_newFields hg t ca fs) fun _ => noBack_ret _

theorem noBack_struct {W : World} {gen : TId → Bool → Bool → Prog CInstr} (hg : ∀ t ca q, NoBack (gen t ca q)) (t : TId) (ca : Bool) :
    NoBack (newStructInstrP W gen t ca) := by
  refine noBack_seq (noBack_call rfl) fun x => ?_
  split
  · exact noBack_ret _
  · refine noBack_seq (noBack_call rfl) fun y => ?_
    split
    · refine noBack_seq (noBack_structFields hg t ca) fun l => ?_
      exact noBack_seq (noBack_call rfl) fun _ => noBack_seq (noBack_call rfl) fun _ => noBack_seq (noBack_call rfl) fun _ => noBack_seq (noBack_call rfl) fun _ => noBack_ret _
    · exact noBack_ret _

theorem noBack_instructionK {W : World} {mk : TId → Bool → Prog CInstr} (hm : ∀ t ca, NoBack (mk t ca)) :
    ∀ k t ca q, NoBack (newInstructionK W mk k t ca q)
  | 0, _, _, _ => trivial
  | k + 1, t, ca, q => by
    have ih := noBack_instructionK (W := W) hm k
    unfold newInstructionK
    split
    · exact noBack_ret _
    split
    · exact noBack_ret _
    split
    · exact noBack_ret _
    split
    · exact noBack_ret _
    · exact hm _ _
    · split
      · exact noBack_ret _
      · refine noBack_seq ?_ fun ki => noBack_seq (ih _ _ _) fun vi => noBack_ret _
        unfold keyInstrP
        split
        · exact noBack_ret _
        · exact ih _ _ _
    · split
      · exact noBack_ret _
      · exact noBack_seq (ih _ _ _) fun i => noBack_ret _
    · exact noBack_seq (ih _ _ _) fun i => noBack_ret _
    · exact noBack_seq (ih _ _ _) fun i => noBack_ret _
    · exact noBack_ret _

theorem noBack_instruction {W : World} : ∀ g t ca q, NoBack (newInstructionP W g t ca q)
  | 0 => noBack_instructionK (mk := fun _ _ => .crash) (fun _ _ => trivial) _
  | g + 1 => noBack_instructionK (fun t ca => noBack_struct (noBack_instruction g) t ca) _

theorem noBack_judge (W : World) (g : Nat) : Judge W g NoBack where
  ret _ := trivial
  crash := trivial
  op ho hk := by
    rename_i o k
    exact ⟨(by cases o <;> first | rfl | cases ho), hk⟩
  bind hp hf := noBack_bind hf hp
  cached t := by
    refine noBack_seq (noBack_call rfl) fun x => ?_
    split
    · exact noBack_ret _
    · exact noBack_seq (noBack_instruction _ _ _ _) fun i => noBack_seq (noBack_call rfl) fun _ => noBack_seq (noBack_call rfl) fun _ => noBack_ret _

/-- What is left of a goroutine in which so many calls made by methods are going on, one in a method of the other. -/
inductive Shape : Nat → Prog Out → Prop
  | outer {p : Prog Out} : NoBack p → Shape 0 p
  | inner {d : Nat} {p : Prog Out} {b : Nat} {c : Call} {l : List Nat} {s : Sl} {k : Bytes → Prog Out} : NoBack p → Shape d (.op (.scratch s) k) →
      Shape (d + 1) (p.bind fun out => .op (.back b c l out) fun _ => .op (.scratch s) k)

theorem shape_ret {d : Nat} {out : Out} (h : Shape d (.ret out)) : d = 0 := by
  generalize hq : Prog.ret out = q at h
  cases h with
  | outer _ => rfl
  | inner hp _ => rename_i p b c l s k hs; cases p <;> cases hq

theorem shape_next {d : Nat} {o : Op} {k : o.Res → Prog Out} (h : Shape d (.op o k)) (hb : isBack o = false) (x : o.Res) : Shape d (k x) := by
  generalize hq : Prog.op o k = q at h
  cases h with
  | outer hp => subst hq; exact .outer (hp.2 x)
  | inner hp hs =>
    rename_i p b c l s k'
    cases p with
    | ret out => cases hq; cases hb
    | crash => cases hq
    | op o' k' => cases hq; exact .inner (p := k' x) (hp.2 x) hs

theorem shape_back {d : Nat} {o : Op} {k : o.Res → Prog Out} (h : Shape d (.op o k)) (hb : isBack o = true) (x : o.Res) :
    ∃ d', d = d' + 1 ∧ Shape d' (k x) ∧ ∃ s k', k x = .op (.scratch s) k' := by
  generalize hq : Prog.op o k = q at h
  cases h with
  | outer hp => subst hq; rw [hp.1] at hb; cases hb
  | inner hp hs =>
    rename_i d' p b c l s k'
    cases p with
    | ret out => cases hq; exact ⟨d', rfl, hs, s, k', rfl⟩
    | crash => cases hq
    | op o' k' => cases hq; rw [hp.1] at hb; cases hb

end Jettison.Proofs
