import Verif.Spec.Endless
import Verif.Proofs.Twin
import Verif.Props.Levels
import Verif.Props.Wrong
import Verif.Props.Concurrent

/-!
# C33 exactly: the types on which preparing a call does not end
-/

namespace Jettison.Props
open Jettison Jettison.Spec Jettison.Model Jettison.Proofs

variable {E : Env} {t : TId} {ca q : Bool}

theorem kind_of_none (h1 : newGoTypeInstr E t = none) (h2 : newMarshalerTypeInstr E t ca = none) : ByKind E t ca := by
  have hs : (E t).special = none := by
    simpa [newGoTypeInstr] using h1
  refine ⟨hs, ?_, ?_⟩
  · intro h
    simp only [newMarshalerTypeInstr] at h2
    rcases h with h | h | h | h <;> simp [h] at h2 <;> (repeat' split at h2) <;> simp_all
  · rintro rfl hp h
    simp only [newMarshalerTypeInstr, hp] at h2
    rcases h with h | h | h | h <;> simp [h] at h2 <;> (repeat' split at h2) <;> simp_all

/-- What is prepared has all it needs prepared. -/
theorem prepared_below {n : Nat} {i : Instr} (h : newInstruction E n t ca q = some i) {u : TId} {cu : Bool} (hd : Descends E (t, ca) (u, cu)) :
    ∃ m q' j, m < n ∧ newInstruction E m u cu q' = some j := by
  cases n with
  | zero => cases h
  | succ n =>
    cases hd with
    | ptr hb hk =>
      simp only [newInstruction, byKind_go hb, byKind_marshaler hb, hk, newBasicTypeInstr, Option.map_eq_some_iff] at h
      obtain ⟨j, h, -⟩ := h
      exact ⟨n, _, j, Nat.lt_succ_self n, h⟩
    | slice hb hk he =>
      have he' : isByteElem E u = false := by rw [← Bool.not_eq_true, isByteElem_iff]; exact he
      simp only [newInstruction, byKind_go hb, byKind_marshaler hb, hk, newBasicTypeInstr, he', Bool.false_eq_true, if_false, Option.map_eq_some_iff] at h
      obtain ⟨j, h, -⟩ := h
      exact ⟨n, _, j, Nat.lt_succ_self n, h⟩
    | array hb hk =>
      simp only [newInstruction, byKind_go hb, byKind_marshaler hb, hk, newBasicTypeInstr, Option.map_eq_some_iff] at h
      obtain ⟨j, h, -⟩ := h
      exact ⟨n, _, j, Nat.lt_succ_self n, h⟩
    | key hb hk hkt hs =>
      have hs' : isStringK (E u).kind = false := by
        cases hk' : (E u).kind <;> first | rfl | exact absurd hk' hs
      simp only [newInstruction, byKind_go hb, byKind_marshaler hb, hk, newBasicTypeInstr, (mapKeyOk_iff E _).mpr hkt, Bool.not_true, Bool.false_eq_true, if_false, hs'] at h
      split at h
      · next ki vi h1 h2 => exact ⟨n, _, ki, Nat.lt_succ_self n, h1⟩
      · cases h
    | elem hb hk hkt =>
      simp only [newInstruction, byKind_go hb, byKind_marshaler hb, hk, newBasicTypeInstr, (mapKeyOk_iff E _).mpr hkt, Bool.not_true, Bool.false_eq_true, if_false] at h
      split at h
      · next ki vi h1 h2 => exact ⟨n, _, vi, Nat.lt_succ_self n, h2⟩
      · cases h

theorem prepared_finite : ∀ {n : Nat} {t ca q i}, newInstruction E n t ca q = some i → ¬ Endless E t ca := by
  intro n
  induction n using Nat.strongRecOn with
  | ind n ih =>
    rintro t ca q i h ⟨f, h0, hf⟩
    obtain ⟨m, q', j, hm, hj⟩ := prepared_below h (u := (f 1).1) (cu := (f 1).2) (h0 ▸ hf 0)
    exact ih m hm hj ⟨fun k => f (k + 1), rfl, fun k => hf (k + 1)⟩

theorem not_endless_acc (h : ¬ Endless E t ca) : Acc (fun b a => Descends E a b) (t, ca) := by
  apply Classical.byContradiction
  intro hn
  have next : ∀ x : { x : TId × Bool // ¬ Acc (fun b a => Descends E a b) x }, ∃ y : { x : TId × Bool // ¬ Acc (fun b a => Descends E a b) x }, Descends E x.1 y.1 := by
    rintro ⟨x, hx⟩
    apply Classical.byContradiction
    intro hno
    refine hx (.intro x fun y hy => ?_)
    apply Classical.byContradiction
    intro hny
    exact hno ⟨⟨y, hny⟩, hy⟩
  let f : Nat → { x : TId × Bool // ¬ Acc (fun b a => Descends E a b) x } := fun n => Nat.rec ⟨(t, ca), hn⟩ (fun _ x => Classical.choose (next x)) n
  exact h ⟨fun n => (f n).1, rfl, fun n => Classical.choose_spec (next (f n))⟩

theorem acc_prepared {x : TId × Bool} (h : Acc (fun b a => Descends E a b) x) : ∀ q, ∃ n i, newInstruction E n x.1 x.2 q = some i := by
  induction h with
  | intro x _ ih =>
    obtain ⟨t, ca⟩ := x
    intro q
    cases h1 : newGoTypeInstr E t with
    | some i => exact ⟨1, i, by simp only [newInstruction, h1]⟩
    | none =>
      cases h2 : newMarshalerTypeInstr E t ca with
      | some i => exact ⟨1, i, by simp only [newInstruction, h1, h2]⟩
      | none =>
        cases h3 : newBasicTypeInstr (E t).kind q with
        | some i => exact ⟨1, i, by simp only [newInstruction, h1, h2, h3]⟩
        | none =>
          have hb := kind_of_none h1 h2
          cases hk : (E t).kind with
          | bool | string | int | float => rw [hk] at h3; cases q <;> cases h3
          | iface | struct | other => rw [hk] at h3; exact ⟨1, _, by simp only [newInstruction, h1, h2, hk, h3]; rfl⟩
          | ptr e =>
            rw [hk] at h3
            obtain ⟨n, i, h⟩ := ih _ (.ptr hb hk) q
            exact ⟨n + 1, .ptr i, by simp only [newInstruction, h1, h2, h3, hk]; rw [h]; rfl⟩
          | slice e =>
            rw [hk] at h3
            cases he : isByteElem E e with
            | true => exact ⟨1, .byteSlice, by simp only [newInstruction, h1, h2, h3, hk, he, if_true]⟩
            | false =>
              obtain ⟨n, i, h⟩ := ih _ (.slice hb hk (by rw [← isByteElem_iff, he]; simp)) false
              exact ⟨n + 1, .slice i (E e).size, by simp only [newInstruction, h1, h2, h3, hk, he]; rw [h]; rfl⟩
          | array m e =>
            rw [hk] at h3
            obtain ⟨n, i, h⟩ := ih _ (.array hb hk) false
            exact ⟨n + 1, .array i (E e).size m (isByteElem E e), by simp only [newInstruction, h1, h2, h3, hk]; rw [h]; rfl⟩
          | map k e =>
            rw [hk] at h3
            cases hok : mapKeyOk E k with
            | false => exact ⟨1, .unsupported t, by simp only [newInstruction, h1, h2, h3, hk, hok, Bool.not_false, if_true]⟩
            | true =>
              have hkt := (mapKeyOk_iff E k).mp hok
              obtain ⟨n, vi, h⟩ := ih _ (.elem hb hk hkt) false
              by_cases hs : (E k).kind = .string
              · exact ⟨n + 1, .map t (wrapKey E k .string) vi, by simp only [newInstruction, h1, h2, h3, hk, hok, hs, isStringK]; rw [h]; rfl⟩
              · have hs' : isStringK (E k).kind = false := by
                  cases hk' : (E k).kind <;> first | rfl | exact absurd hk' hs
                obtain ⟨n', ki, h'⟩ := ih _ (.key hb hk hkt hs) false
                have a1 := newInstruction_mono h (max n n') (Nat.le_max_left _ _)
                have a2 := newInstruction_mono h' (max n n') (Nat.le_max_right _ _)
                exact ⟨max n n' + 1, .map t (wrapKey E k ki) vi, by simp only [newInstruction, h1, h2, h3, hk, hok, hs']; rw [a1, a2]; rfl⟩

/-- C33, exactly: preparing a type ends if and only if there is no endless chain of types. -/
theorem C33_types_iff : (∃ n i, newInstruction E n t ca q = some i) ↔ ¬ Endless E t ca :=
  ⟨fun ⟨_, _, h⟩ => prepared_finite h, fun h => acc_prepared (not_endless_acc h) q⟩

/-- C33: on a value of a type with such a chain no call ends, whatever the value and the options; the
stack overflows. -/
theorem C33_endless_wrong {W : World} (h : Endless W.E t (isPtrK (W.E t).kind)) (c : Call) {w : Addr} (hv : c.value = some (t, w)) {o : EncOpts}
    (ho : prepare c.opts = .ok o) (n : Nat) : c.alone W n = .nofuel := by
  have hi : instrFor W.E W.tfuel t = none := by
    unfold instrFor
    cases hi : newInstruction W.E W.tfuel t (isPtrK (W.E t).kind) false with
    | none => rfl
    | some i => exact absurd h (prepared_finite hi)
  have ha : ∀ dst, appendJSON (c.world W) (run (c.world W) c.heap o n) [] (some (t, w)) dst = .nofuel := by
    intro dst
    simp only [appendJSON, Call.world, hi]
  unfold Call.alone
  rw [hv]
  cases c.dst with
  | none => simp only [marshalOpts, ho, marshalJSON, ha, marshalRet]
  | some dst => simp only [appendOpts, ho, appendTop, ha, appendRet]

/-- C33: nor does one return that other calls share the caches with. -/
theorem C33_endless_concurrent_wrong {W : World} {g n : Nat} {C : Conf} (hl : FormatContract W.fmt) (hr : Reached W g n C) (hh : AllHonest C) {T : Thread}
    (hT : T ∈ C.thr) (h : Endless W.E t (isPtrK (W.E t).kind)) {w : Addr} (hv : T.call.value = some (t, w)) {o : EncOpts}
    (ho : prepare T.call.opts = .ok o) (out : Out) : ¬ Returned T out := by
  intro hret
  have := C31_result hl hr hh hT hret
  rw [C33_endless_wrong h T.call hv ho] at this
  cases out with
  | ret s e =>
    cases s with
    | none => cases this
    | some s => cases hb : C.sh.bytes s <;> simp [Out.view, hb] at this
  | panic | bad => cases this

/-- `type Rec []Rec` is endless. -/
theorem rec_endless (ca : Bool) : Endless wrongW.E 38 ca := by
  have hb : ∀ ca, ByKind wrongW.E 38 ca := fun ca => ⟨by decide +kernel, by unfold MethSet.any; decide +kernel, fun _ _ => by unfold MethSet.any; decide +kernel⟩
  refine ⟨fun n => (38, if n = 0 then ca else true), by simp, fun n => ?_⟩
  simp only [Nat.add_one_ne_zero, if_false]
  exact .slice (hb _) (by decide +kernel) (by unfold ByteElem; decide +kernel)

example (n : Nat) : (Call.mk (wrongH []) wrongW.order (some (38, 100)) [] none).alone wrongW n = .nofuel :=
  C33_endless_wrong (rec_endless _) _ rfl rfl n

/-- A call of it has been started: it will not return. -/
example : ∃ C T, Reached wrongW 20 200 C ∧ T ∈ C.thr ∧ ∀ out, ¬ Returned T out := by
  let c : Call := ⟨wrongH [], wrongW.order, some (38, 100), [], none⟩
  have hr : Reached wrongW 20 200 ⟨.init, [⟨c, c.marshal wrongW 20 200, [], []⟩]⟩ := .step .refl (.marshal (c := c) rfl)
  refine ⟨_, _, hr, List.mem_singleton.mpr rfl, C33_endless_concurrent_wrong toyFmt_contract hr ?_ (List.mem_singleton.mpr rfl) (rec_endless _) (w := 100) rfl rfl⟩
  intro T hT
  rw [List.mem_singleton.mp hT]
  exact (List.forall_mem_singleton.mpr (wrong_honest []))

/-- The type `sync.Map` is not. -/
example : ¬ Endless wrongW.E 32 false := C33_types_iff.mp ⟨5, by cases h : newInstruction wrongW.E 5 32 false false with
  | some i => exact ⟨i, rfl⟩
  | none => exact absurd h (by decide +kernel)⟩

end Jettison.Props
