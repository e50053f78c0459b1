import Verif.Spec.FlatLoose
import Verif.Props.Flat
import Verif.Props.Loosened

/-!
# C84: structs whose members are held in interfaces
-/

namespace Jettison.Props
open Jettison Jettison.Spec Jettison.Model Jettison.Proofs

variable {W : World} {M : MethV} {o : EncOpts} {t : TId} {ca q : Bool} {v : Val} {b : Bytes}

/-- C84: structs that show the same members have the same texts, also if some of them are held in interfaces. -/
theorem C84_held {H : Heap} (R : Ready W H M) {t' : TId} {v' : Val} (hp : PlainStruct W.E t false) (hp' : PlainStruct W.E t' false) (ht : HasType W.E t v)
    (h : HeldMembers W o t v t' v') : Writes W M o t false false v b ↔ Writes W M o t' false false v' b := by
  classical
  obtain ⟨shown, shown', h1, h2, h3, h4⟩ := h
  have hq : isPtrK (W.E t').kind = false := by
    obtain ⟨⟨fs, hk⟩, -⟩ := hp'
    unfold HasFields at hk
    rw [hk]; rfl
  have hg : Generic W o t v (.iface t' v') := by
    refine .struct (fun m => ∃ m', HeldMember W o v v' m m' ∧ ∃ i : Nat, shown[i]? = some m ∧ shown'[i]? = some m') hp hp' h1 h2 h3 (fun i m m' hm hm' hh => ?_)
      (fun i m m' hm hm' hh => ?_) (fun i m m' x y hm hm' hh k1 k2 => ?_)
    · exact (h4 i m m' hm hm').resolve_right fun h => hh ⟨m', h, i, hm, hm'⟩
    all_goals
      obtain ⟨m2, hh, j, hj, hj'⟩ := hh
      have hn : shown.Nodup := by
        obtain ⟨l, d1, d2, -⟩ := h1
        exact (membersOf_nodup d1).sublist d2
      obtain rfl : i = j := (List.getElem?_inj (List.getElem?_eq_some_iff.mp hm).1 hn).mp (hm.trans hj.symm)
      rw [hm'] at hj'
      cases hj'
    · exact hh.1
    · obtain ⟨-, x', y', e1, e2, e3⟩ := hh
      rwa [fieldAt_unique k1 e1, fieldAt_unique k2 e2]
  have := C83_held (M := M) (b := b) R.types hg ht
  rw [this, heldText_iface]
  unfold TopText
  rw [hq]

/-- C84: calls for the one and the other both succeed or both fail, and return the same, also if some members are held in interfaces. -/
theorem C84_held_calls {H : Heap} (D : FaultReady W H M) (DW : WriteReady W H M) (hP : PathFree M) {t' : TId} {v' : Val}
    (hp : PlainStruct W.E t false) (hp' : PlainStruct W.E t' false) {opts : List (Option Opt)} (ho : prepare opts = .ok o)
    (hs : HeldMembers W o t v t' v') {w w' : Addr}
    (hx : ReprE W.E H.mem (some (t, w)) (.iface t v)) (hx' : ReprE W.E H.mem (some (t', w')) (.iface t' v'))
    (hf : TimesFine W t v) (hf' : TimesFine W t' v') {n n' : Nat} (hn : marshalOpts W H n (some (t, w)) opts ≠ .nofuel)
    (hn' : marshalOpts W H n' (some (t', w')) opts ≠ .nofuel) (dst : Bytes) :
    ((∃ b, marshalOpts W H n (some (t, w)) opts = .ret (some b) none) ↔ ∃ b, marshalOpts W H n' (some (t', w')) opts = .ret (some b) none) ∧
    (bmHas o.flags .unsortedMap = false → KeysTold W M o t' v' → ∀ b, marshalOpts W H n (some (t, w)) opts = .ret (some b) none →
      marshalOpts W H n' (some (t', w')) opts = .ret (some b) none ∧ appendOpts W H n' dst (some (t', w')) opts = .ret (some (dst ++ b)) none) := by
  have ht : HasType W.E t v := by
    cases repr_inIface hx with
    | val h => exact h
  have hq : ∀ {u}, PlainStruct W.E u false → isPtrK (W.E u).kind = false := by
    rintro u ⟨⟨fs, hk⟩, -⟩
    unfold HasFields at hk
    rw [hk]; rfl
  have e : ∀ b, Writes W M o t (isPtrK (W.E t).kind) false v b ↔ Writes W M o t' (isPtrK (W.E t').kind) false v' b := fun b => by
    rw [hq hp, hq hp']
    exact C84_held DW.ready hp hp' ht hs
  have key : ∀ b, marshalOpts W H n (some (t, w)) opts = .ret (some b) none → Writes W M o t' (isPtrK (W.E t').kind) false v' b := fun b h =>
    (e b).mp ((C56_bytes DW hx hf ho).1 b h)
  refine ⟨⟨fun ⟨b, h⟩ => ?_, fun ⟨b, h⟩ => ?_⟩, fun hu hd b h => (C56_complete D DW hP hx' hf' ho (key b h) n' dst hn').2 hu hd⟩
  · obtain ⟨c, hc, -⟩ := (C56_complete D DW hP hx' hf' ho (key b h) n' dst hn').1
    exact ⟨c, hc⟩
  · obtain ⟨c, hc, -⟩ := (C56_complete D DW hP hx hf ho ((e b).mpr ((C56_bytes DW hx' hf' ho).1 b h)) n [] hn).1
    exact ⟨c, hc⟩

end Jettison.Props
