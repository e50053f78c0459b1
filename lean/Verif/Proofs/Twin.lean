import Verif.Proofs.Relate
import Verif.Proofs.Kinds
import Verif.Proofs.Parts
import Verif.Spec.Peel

/-!
# Addressability

The instructions made for one type in addressable and other positions give the same
results if there are no methods that need an address.
-/

namespace Jettison.Proofs
open Jettison Jettison.Model Jettison.Spec

variable {E : Env} {W : World} {M : MethV} {o : EncOpts}

theorem newInstruction_mono {n : Nat} : ∀ {t : TId} {ca q : Bool} {i : Instr}, newInstruction E n t ca q = some i → ∀ m, n ≤ m → newInstruction E m t ca q = some i := by
  induction n with
  | zero => intro t ca q i h; cases h
  | succ n ih =>
    intro t ca q i h m hm
    obtain ⟨m, rfl⟩ : ∃ k, m = k + 1 := ⟨m - 1, by omega⟩
    have hm : n ≤ m := by omega
    simp only [newInstruction] at h ⊢
    cases hg : newGoTypeInstr E t with
    | some j => rw [hg] at h; exact h
    | none =>
      rw [hg] at h
      cases hmm : newMarshalerTypeInstr E t ca with
      | some j => rw [hmm] at h; exact h
      | none =>
        rw [hmm] at h
        cases hb : newBasicTypeInstr (E t).kind q with
        | some j => rw [hb] at h; exact h
        | none =>
          rw [hb] at h
          simp only at h ⊢
          cases hk : (E t).kind with
          | map kt et =>
            rw [hk] at h
            simp only at h ⊢
            split at h
            · next hkey => rw [if_pos hkey]; exact h
            · next hkey =>
              rw [if_neg hkey]
              cases hki : (if isStringK (E kt).kind then some Instr.string else newInstruction E n kt false false) with
              | none => rw [hki] at h; cases h
              | some ki =>
                rw [hki] at h
                cases hvi : newInstruction E n et false false with
                | none => rw [hvi] at h; cases h
                | some vi =>
                  rw [hvi] at h
                  rw [ih hvi m hm]
                  have : (if isStringK (E kt).kind then some Instr.string else newInstruction E m kt false false) = some ki := by
                    by_cases hs : isStringK (E kt).kind = true
                    · rw [if_pos hs] at hki ⊢; exact hki
                    · rw [if_neg hs] at hki ⊢; exact ih hki m hm
                  rw [this]; exact h
          | slice e =>
            rw [hk] at h
            simp only at h ⊢
            split at h
            · next hkey => rw [if_pos hkey]; exact h
            · next hkey =>
              rw [if_neg hkey]
              cases hvi : newInstruction E n e true false with
              | none => rw [hvi] at h; cases h
              | some vi => rw [hvi] at h; rw [ih hvi m hm]; exact h
          | array l e =>
            rw [hk] at h
            simp only at h ⊢
            cases hvi : newInstruction E n e ca false with
            | none => rw [hvi] at h; cases h
            | some vi => rw [hvi] at h; rw [ih hvi m hm]; exact h
          | ptr e =>
            rw [hk] at h
            simp only at h ⊢
            cases hvi : newInstruction E n e true q with
            | none => rw [hvi] at h; cases h
            | some vi => rw [hvi] at h; rw [ih hvi m hm]; exact h
          | _ => rw [hk] at h; exact h

theorem newInstruction_det {n m : Nat} {t : TId} {ca q : Bool} {i j : Instr} (h : newInstruction E n t ca q = some i)
    (h' : newInstruction E m t ca q = some j) : i = j := by
  have h1 := newInstruction_mono h (max n m) (by omega)
  have h2 := newInstruction_mono h' (max n m) (by omega)
  rw [h1] at h2
  exact Option.some.inj h2

/-- Instructions that differ in addressability only. -/
inductive Twin (E : Env) : TId → Instr → Instr → Prop
  | same {t i} : Twin E t i i
  | struct {t ca ca'} : isStructK (E t).kind = true → (E t).special = none → Twin E t (.struct t ca) (.struct t ca')
  | array {t n e i j s isba} : (E t).kind = .array n e → Twin E e i j → Twin E t (.array i s n isba) (.array j s n isba)
  | wild {t i j} : (E t).pmeths ≠ (E t).meths → Twin E t i j

theorem newMarshaler_addr {t : TId} {ca ca' : Bool} (h : (E t).pmeths = (E t).meths) : newMarshalerTypeInstr E t ca = newMarshalerTypeInstr E t ca' := by
  simp only [newMarshalerTypeInstr, h]
  rcases (E t).meths with ⟨a, b, c, d⟩
  cases a <;> cases b <;> cases c <;> cases d <;> simp

theorem newInstruction_twin {n : Nat} : ∀ {m : Nat} {t : TId} {ca ca' q : Bool} {i j : Instr}, newInstruction E n t ca q = some i →
    newInstruction E m t ca' q = some j → Twin E t i j := by
  induction n with
  | zero => intro m t ca ca' q i j h; cases h
  | succ n ih =>
    intro m t ca ca' q i j h h'
    by_cases hp : (E t).pmeths = (E t).meths
    · cases m with
      | zero => cases h'
      | succ m =>
      have hh := h
      have hh' := h'
      simp only [newInstruction] at h h'
      cases hg : newGoTypeInstr E t with
      | some j => rw [hg] at h h'; cases h; cases h'; exact .same
      | none =>
        rw [hg] at h h'
        rw [newMarshaler_addr hp (ca := ca') (ca' := ca)] at h'
        cases hmm : newMarshalerTypeInstr E t ca with
        | some j => rw [hmm] at h h'; cases h; cases h'; exact .same
        | none =>
          rw [hmm] at h h'
          cases hb : newBasicTypeInstr (E t).kind q with
          | some j => rw [hb] at h h'; cases h; cases h'; exact .same
          | none =>
            rw [hb] at h h'
            simp only at h h'
            have hsp : (E t).special = none := by simpa [newGoTypeInstr] using hg
            cases hk : (E t).kind with
            | struct fs => rw [hk] at h h'; cases h; cases h'; exact .struct (by rw [hk]; rfl) hsp
            | array l e =>
              rw [hk] at h h'
              simp only [Option.map_eq_some_iff] at h h'
              obtain ⟨i1, h1, rfl⟩ := h
              obtain ⟨j1, h2, rfl⟩ := h'
              exact .array hk (ih h1 h2)
            | iface k => rw [hk] at h h'; cases h; cases h'; exact .same
            | other => rw [hk] at h h'; cases h; cases h'; exact .same
            | bool => rw [hk] at hb; cases hb
            | int => rw [hk] at hb; cases hb
            | float => rw [hk] at hb; cases hb
            | string => rw [hk] at hb; cases hb
            | map kt et =>
              have : newInstruction E (m + 1) t ca q = some j := by
                simp only [newInstruction, hg, hmm, hb, hk]; rw [hk] at h'; exact h'
              rw [newInstruction_det hh this]; exact .same
            | slice e =>
              have : newInstruction E (m + 1) t ca q = some j := by
                simp only [newInstruction, hg, hmm, hb, hk]; rw [hk] at h'; exact h'
              rw [newInstruction_det hh this]; exact .same
            | ptr e =>
              have : newInstruction E (m + 1) t ca q = some j := by
                simp only [newInstruction, hg, hmm, hb, hk]; rw [hk] at h'; exact h'
              rw [newInstruction_det hh this]; exact .same
    · exact .wild hp

/-- Equal, or one of them did not finish. -/
def Near (r r' : Res) : Prop := r = .nofuel ∨ r' = .nofuel ∨ r = r'

theorem near_cong : Cong Near where
  refl r := .inr (.inr rfl)
  bind := by
    intro r r' h k k' hk g
    rcases h with rfl | rfl | rfl
    · exact .inl rfl
    · exact .inr (.inl rfl)
    · cases r with
      | ok b => exact hk b
      | _ => exact .inr (.inr rfl)

theorem near_array {rec : RecV} {path : Path} {ins ins' : Instr} : ∀ (vs : List Val) (i : Nat) (dst : Bytes),
    (∀ x ∈ vs, ∀ path dst, Near (rec path ins x dst) (rec path ins' x dst)) → Near (arrayLoopV rec path ins i vs dst) (arrayLoopV rec path ins' i vs dst)
  | [], _, _, _ => near_cong.refl _
  | v :: vs, i, dst, h => by
    simp only [arrayLoopV]
    exact near_cong.seq (h v (by simp) _ _) (fun b => near_array vs _ _ (fun x hx => h x (by simp [hx])))

theorem near_struct {rec : RecV} {v : Val} {path : Path} {Fs : List Fld} {t : TId} {k : Nat} {ca ca' : Bool} :
    ∀ (fs fs' : List FInstr) (i : Nat) (first : Bool) (dst : Bytes), Fs.mapM (newFieldInstr E k t ca) = some fs → Fs.mapM (newFieldInstr E k t ca') = some fs' →
    (∀ f ∈ fs, ∀ f' ∈ fs', ∀ ft x, Twin E ft f.instr f'.instr → typeByIndex E t f.fld.index = some ft → fieldV o f v = some (some x) →
      ∀ path dst, Near (rec path f.instr x dst) (rec path f'.instr x dst)) →
    Near (structLoopV o rec path v i fs first dst) (structLoopV o rec path v i fs' first dst) := by
  induction Fs with
  | nil =>
    intro fs fs' i first dst h h' _
    simp at h h'
    subst h h'
    exact near_cong.refl _
  | cons F Fs ih =>
    intro fs fs' i first dst h h' hh
    simp only [List.mapM_cons] at h h'
    cases hf : newFieldInstr E k t ca F with
    | none => simp [hf] at h
    | some f =>
      cases hf' : newFieldInstr E k t ca' F with
      | none => simp [hf'] at h'
      | some f' =>
        cases hl : Fs.mapM (newFieldInstr E k t ca) with
        | none => simp [hf, hl] at h
        | some l =>
          cases hl' : Fs.mapM (newFieldInstr E k t ca') with
          | none => simp [hf', hl'] at h'
          | some l' =>
            simp [hf, hl] at h
            simp [hf', hl'] at h'
            subst h h'
            obtain ⟨ft, a1, a2, a3, a4, a5, a6⟩ := newFieldInstr_inv hf
            obtain ⟨ft', b1, b2, b3, b4, b5, b6⟩ := newFieldInstr_inv hf'
            rw [a1] at b1
            cases b1
            have htw := newInstruction_twin a6 b6
            have hfv : fieldV o f' v = fieldV o f v := by
              simp only [fieldV, a2, a3, a5, b2, b3, b5]
            simp only [structLoopV, hfv]
            have ih' := fun i first dst => ih l l' i first dst hl hl' (fun f hf f' hf' => hh f (by simp [hf]) f' (by simp [hf']))
            cases hx : fieldV o f v with
            | none => exact near_cong.refl _
            | some y =>
              cases y with
              | none => exact ih' _ _ _
              | some x =>
                simp only [a2, b2, a4, b4]
                refine near_cong.seq (hh f (by simp) f' (by simp) ft x htw (by rw [a2]; exact a1) hx _ _) (fun b => ?_)
                split
                · exact ih' _ _ _
                · exact ih' _ _ _

theorem runV_twin {pt : TId → TId} (G : GoTypes W.E pt) : ∀ (n : Nat) {t : TId} {i j : Instr} {v : Val}, Twin W.E t i j → HasType W.E t v →
    NoPtrMeths W.E t v → ∀ path dst, Near (runV W M o n path i v dst) (runV W M o n path j v dst)
  | 0, _, _, _, _, _, _, _, _, _ => .inl rfl
  | n + 1, t, i, j, v, htw, hv, hp, path, dst => by
    have hrun : ∀ i, runV W M o (n+1) path i v dst = execV W M o (runV W M o n) path i v dst := fun _ => rfl
    rw [hrun, hrun]
    cases htw with
    | same => exact near_cong.refl _
    | wild h => exact absurd (hp _ _ .refl) h
    | @array _ l e i j s isba hk hij =>
      obtain ⟨vs, rfl, -, h1⟩ := has_array G hk hv
      simp only [execV, encodeArrayV]
      split
      · exact near_cong.refl _
      · refine near_array vs 0 dst (fun x hx path dst => runV_twin G n hij (h1 x hx) (fun t' v' hw => hp _ _ (within_trans (.step .refl (.array hk hx)) hw)) path dst)
    | @struct _ ca ca' hk hs =>
      have hst : IsStruct W.E t := by
        revert hk
        cases hkk : (W.E t).kind <;> simp [isStructK]
        exact ⟨_, hkk⟩
      simp only [execV]
      split
      · exact near_cong.refl _
      · cases hfl : structFieldsInstr W.E W.U W.grow W.sort W.tfuel t ca with
        | none => exact .inl rfl
        | some fl =>
          cases hfl' : structFieldsInstr W.E W.U W.grow W.sort W.tfuel t ca' with
          | none => exact .inr (.inl rfl)
          | some fl' =>
            obtain ⟨l, hl, hm, -⟩ := structFieldsInstr_ok hfl
            obtain ⟨l', hl', hm', -⟩ := structFieldsInstr_ok hfl'
            rw [hl] at hl'
            cases hl'
            refine near_struct fl fl' 0 true dst hm hm' (fun f hf f' hf' ft x htw hty hx path dst => ?_)
            have hat := fieldAt_iff.mpr (fieldV_route hx)
            obtain ⟨h1, h2⟩ := fieldAt_type G hat hst hv hty
            exact runV_twin G n htw h1 (fun t' v' hw => hp _ _ (within_trans h2 hw)) path dst

end Jettison.Proofs
