import Verif.Proofs.Twin
import Verif.Props.Levels
import Verif.Props.Scope

/-!
# Chains of pointers and interfaces (C43)

Values that lead to the same value through any chains of pointers and interfaces have
the same encoding. The result is the same on both sides also when it is an error.
-/

namespace Jettison.Props
open Jettison Jettison.Spec Jettison.Model Jettison.Proofs

variable {W : World} {H : Heap} {M : MethV} {o : EncOpts} {t t' t0 : TId} {ca ca' : Bool} {i i' : Instr} {p p' : Loc} {v v' v0 : Val}

theorem byKind_any {E : Env} {t : TId} (h : ByKind E t true) (ca : Bool) : ByKind E t ca := ⟨h.special, h.meths, fun _ => h.pmeths rfl⟩

theorem peel_run (R : Ready W H M) (hp : Peel W.E t v t0 v0) : ∀ {ca : Bool} {i : Instr} {p : Loc}, Stands W H t ca false i p v → ∀ n,
    (∀ path dst, run W H o n path i p dst = .nofuel) ∨
    ∃ c j l m, Stands W H t0 c false j l v0 ∧ m ≤ n ∧ ∀ path dst, run W H o n path i p dst = run W H o m path j l dst := by
  induction hp with
  | refl => intro ca i p S n; exact .inr ⟨_, _, _, n, S, Nat.le_refl _, fun _ _ => rfl⟩
  | @ptr t e x t0 v0 hk hb _ ih =>
    intro ca i p S n
    cases n with
    | zero => exact .inl fun _ _ => rfl
    | succ n =>
      rcases C43_pointer (o := o) R S (byKind_any hb _) hk with ⟨h, -⟩ | ⟨y, j, a, h, S', hr⟩
      · cases h
      · cases h
        rcases ih S' n with h | ⟨c, j', l, m, S2, hm, h⟩
        · exact .inl fun path dst => by rw [hr, h]
        · exact .inr ⟨c, j', l, m, S2, by omega, fun path dst => by rw [hr, h]⟩
  | @iface t k d x t0 v0 hk hb _ ih =>
    intro ca i p S n
    cases n with
    | zero => exact .inl fun _ _ => rfl
    | succ n =>
      rcases C43_interface (o := o) R S (byKind_any hb _) hk with ⟨h, -⟩ | ⟨d, y, h, hr⟩
      · cases h
      · cases h
        rcases hr n with h | ⟨j, l, m, S', hm, hr⟩
        · exact .inl h
        · rcases ih S' m with h | ⟨c, j', l', m', S2, hm', h⟩
          · exact .inl fun path dst => by rw [hr, h]
          · exact .inr ⟨c, j', l', m', S2, by omega, fun path dst => by rw [hr, h]⟩

/-- One value of one type encodes the same wherever it stands. -/
theorem stands_same (R : Ready W H M) (S : Stands W H t ca false i p v) (S' : Stands W H t ca' false i' p' v) (hm : NoPtrMeths W.E t v)
    {n n' : Nat} {path : Path} {dst : Bytes} (h : run W H o n path i p dst ≠ .nofuel) (h' : run W H o n' path i' p' dst ≠ .nofuel) :
    run W H o n path i p dst = run W H o n' path i' p' dst := by
  rw [stands_runV R S] at h ⊢
  rw [stands_runV R S'] at h' ⊢
  obtain ⟨k, hk⟩ := S.made
  obtain ⟨k', hk'⟩ := S'.made
  have h1 := runV_mono (Nat.le_max_left n n') h
  have h2 := runV_mono (Nat.le_max_right n n') h'
  rcases runV_twin (M := M) (o := o) R.types (max n n') (newInstruction_twin hk hk') (repr_hasType S.holds) hm path dst with e | e | e
  · rw [h1] at e; exact absurd e h
  · rw [h2] at e; exact absurd e h'
  · rw [← h1, ← h2, e]

/-- Two values leading to the same value through pointers and interfaces are encoded alike, wherever they stand. -/
theorem C43_chain (R : Ready W H M) (S : Stands W H t ca false i p v) (S' : Stands W H t' ca' false i' p' v') (hp : Peel W.E t v t0 v0)
    (hp' : Peel W.E t' v' t0 v0) (hm : NoPtrMeths W.E t0 v0)
    {n n' : Nat} {path : Path} {dst : Bytes} (h : run W H o n path i p dst ≠ .nofuel) (h' : run W H o n' path i' p' dst ≠ .nofuel) :
    run W H o n path i p dst = run W H o n' path i' p' dst := by
  rcases peel_run (o := o) R hp S n with e | ⟨c, j, l, m, S1, -, e⟩
  · exact absurd (e _ _) h
  · rcases peel_run (o := o) R hp' S' n' with e' | ⟨c', j', l', m', S2, -, e'⟩
    · exact absurd (e' _ _) h'
    · rw [e] at h ⊢
      rw [e'] at h' ⊢
      exact stands_same R S1 S2 hm h h'

/-- A chain of pointers and interfaces that ends in nil is encoded as `null`. -/
theorem C43_chain_nil (R : Ready W H M) (S : Stands W H t ca false i p v) (hp : Peel W.E t v t0 .nil) (hb : ByKind W.E t0 true)
    (hk : (∃ e, (W.E t0).kind = .ptr e) ∨ ∃ k, (W.E t0).kind = .iface k) {n : Nat} {path : Path} {dst : Bytes}
    (h : run W H o n path i p dst ≠ .nofuel) : run W H o n path i p dst = .ok (dst ++ b! "null") := by
  rcases peel_run (o := o) R hp S n with e | ⟨c, j, l, m, S1, -, e⟩
  · exact absurd (e _ _) h
  · rw [e] at h ⊢
    cases m with
    | zero => exact absurd rfl h
    | succ m =>
      rcases hk with ⟨e', hk⟩ | ⟨k, hk⟩
      · rcases C43_pointer (o := o) R S1 (byKind_any hb _) hk with ⟨-, h⟩ | ⟨_, _, _, h, _⟩
        · exact h m path dst
        · cases h
      · rcases C43_interface (o := o) R S1 (byKind_any hb _) hk with ⟨-, h⟩ | ⟨_, _, h, _⟩
        · exact h m path dst
        · cases h

theorem appendJSON_same (R : Ready W H M) {w w' : Addr} (hx : ReprE W.E H.mem (some (t, w)) (.iface t v)) (hx' : ReprE W.E H.mem (some (t', w')) (.iface t' v'))
    (hp : Peel W.E t v t0 v0) (hp' : Peel W.E t' v' t0 v0) (hm : NoPtrMeths W.E t0 v0) {n n' : Nat} {path : Path} {dst : Bytes}
    (h : appendJSON W (run W H o n) path (some (t, w)) dst ≠ .nofuel) (h' : appendJSON W (run W H o n') path (some (t', w')) dst ≠ .nofuel) :
    appendJSON W (run W H o n) path (some (t, w)) dst = appendJSON W (run W H o n') path (some (t', w')) dst := by
  rcases entry (o := o) R hx n with ⟨-, e⟩ | ⟨j, l, m, S, -, e⟩
  · exact absurd (e _ _) h
  · rcases entry (o := o) R hx' n' with ⟨-, e'⟩ | ⟨j', l', m', S', -, e'⟩
    · exact absurd (e' _ _) h'
    · rw [e] at h ⊢
      rw [e'] at h' ⊢
      exact C43_chain R S S' hp hp' hm h h'

/-- `MarshalOpts(&v, …)`, `MarshalOpts(v, …)`, `MarshalOpts(&i, …)` where the interface `i` holds `v` or `&v`, and
so on: the same bytes or the same error. -/
theorem C43_transparent (R : Ready W H M) {w w' : Addr} (hx : ReprE W.E H.mem (some (t, w)) (.iface t v))
    (hx' : ReprE W.E H.mem (some (t', w')) (.iface t' v')) (hp : Peel W.E t v t0 v0) (hp' : Peel W.E t' v' t0 v0)
    (hm : NoPtrMeths W.E t0 v0) (opts : List (Option Opt)) {n n' : Nat}
    (h : marshalOpts W H n (some (t, w)) opts ≠ .nofuel) (h' : marshalOpts W H n' (some (t', w')) opts ≠ .nofuel) :
    marshalOpts W H n (some (t, w)) opts = marshalOpts W H n' (some (t', w')) opts := by
  simp only [marshalOpts] at h h' ⊢
  cases hpr : prepare opts with
  | error e => rfl
  | ok o =>
    simp only [hpr, marshalJSON] at h h' ⊢
    have key : ∀ {r : Res}, marshalRet r ≠ .nofuel → r ≠ .nofuel := by rintro r h rfl; exact h rfl
    rw [appendJSON_same R hx hx' hp hp' hm (key h) (key h')]

/-! ## Examples -/

/-- An interface at 500 holding a pointer to the item at 400, and a nil pointer in an interface. -/
def chainCells : List (Addr × Cell) := (500, .eface (some (9, 400))) :: (520, .eface (some (9, 0))) :: shopCells

theorem chain_peel : Peel shopW.E 21 (.ptr (.iface 9 (.ptr itemV))) 4 itemV :=
  .ptr (e := 10) rfl (byKind_of (by decide +kernel)) (.iface (k := 0) rfl (byKind_of (by decide +kernel))
    (.ptr (e := 4) rfl (byKind_of (by decide +kernel)) .refl))

theorem item_noPtrMeths : NoPtrMeths shopW.E 4 itemV := fun t' v' hw => by
  have h := allParts_within (E := shopW.E) (P := fun t _ => decide ((shopW.E t).pmeths = (shopW.E t).meths)) (n := 6) (by decide +kernel) hw
  exact of_decide_eq_true h

/-- A pointer to an interface holding a pointer to an item, and the item. -/
example : marshalOpts shopW (shopH chainCells) 12 (some (21, 500)) [] = marshalOpts shopW (shopH chainCells) 9 (some (4, 400)) [] :=
  C43_transparent (shop_ready _) (shop_holds 9 (by decide +kernel)) (shop_holds 6 (by decide +kernel)) chain_peel .refl item_noPtrMeths []
    (by decide +kernel) (by decide +kernel)

example : marshalOpts shopW (shopH chainCells) 12 (some (21, 500)) [] = .ret (some (b! "{\"name\":\"tea\",\"p\":\"12\"}")) none := by decide +kernel

/-- A pointer to an interface holding a nil pointer. -/
example : ∃ p, Stands shopW (shopH chainCells) 21 true false (.ptr .iface) p (.ptr (.iface 9 .nil)) ∧
    run shopW (shopH chainCells) defaultEncOpts 9 [] (.ptr .iface) p [] = .ok (b! "null") := by
  obtain ⟨p, S⟩ : ∃ p, Stands shopW (shopH chainCells) 21 true false (.ptr .iface) p (.ptr (.iface 9 .nil)) :=
    shop_stands (w := 520) 6 (by decide +kernel) (by decide +kernel)
  refine ⟨p, S, C43_chain_nil (shop_ready _) S (t0 := 9) (.ptr (e := 10) rfl (byKind_of (by decide +kernel)) (.iface (k := 0) rfl (byKind_of (by decide +kernel)) .refl))
    (byKind_of (by decide +kernel)) (.inl ⟨4, rfl⟩) ?_⟩
  rw [stands_runV (shop_ready _) S]; decide +kernel

/-- The condition on methods is needed: the field `P` of a `Full` has a method of its pointer. -/
theorem C43_needs_no_pointer_methods : marshal shopW (shopH shopCells) 9 (some (42, 100)) ≠ marshal shopW (shopH shopCells) 9 (some (85, 100)) := by
  decide +kernel

end Jettison.Props
