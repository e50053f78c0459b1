import Verif.Proofs.LocalD
import Verif.Props.Local
import Verif.Props.WritesUnique
import Verif.Props.First
import Verif.Props.WritesEx

/-!
# C72: the theorems about texts and errors, with conditions on the types of the value only

C30, C51, C56 and C58 ask all types of the program to meet the conditions (`Ready`). Here only those of the value need to.
-/

namespace Jettison.Props
open Jettison Jettison.Spec Jettison.Model Jettison.Proofs

variable {S : TId → Prop} {W : World} {H : Heap} {M : MethV} {o : EncOpts} {t : TId} {v : Val}

/-- The assumptions of C56 and C58 (`WriteReady`), for the types of a family. -/
structure TextReadyFor (S : TId → Prop) (W : World) (H : Heap) (M : MethV) : Prop where
  family : Family W.E W.ptrTo S
  ready : ReadyFor S W H M
  fmt : FormatContract W.fmt
  honest : HonestAppend H.meth
  honestV : HonestAppend M
  order : OrderOk W.order
  valid : ValidContract W.jsonValid

theorem cut_sharing (F : Family W.E W.ptrTo S) (M : MethV) : Sharing S W (cutWorld S W) M (cutMeth S M) where
  types := Family.cut F
  ptrTo _ _ := rfl
  ptrIn := F.ptrTo
  rest := rfl
  meth _ _ _ _ _ _ ht := by simp only [cutMeth, if_pos ht]

theorem cut_honest {α : Type} {meth : Path → MethKind → Option Ctx → TId → α → Bytes → MethRes} (h : HonestAppend meth) {meth'}
    (h1 : ∀ path m c t w d, S t → meth' path m c t w d = meth path m c t w d)
    (h2 : ∀ path m c t w d, ¬ S t → meth' path m c t w d = MethRes.panic) : HonestAppend meth' := by
  intro path m ctx t w hm
  by_cases ht : S t
  · have e : meth' path m ctx t w = meth path m ctx t w := funext fun d => h1 path m ctx t w d ht
    rw [e]; exact h path m ctx t w hm
  · exact .inr (.inl fun d => h2 path m ctx t w d ht)

theorem TextReadyFor.cut (D : TextReadyFor S W H M) : WriteReady (cutWorld S W) (cutHeap S H) (cutMeth S M) where
  ready := cut_ready D.family D.ready
  fmt := D.fmt
  honest := cut_honest (S := S) D.honest (fun _ _ _ _ _ _ ht => by simp only [cutHeap, if_pos ht]) (fun _ _ _ _ _ _ ht => by simp only [cutHeap, if_neg ht])
  honestV := cut_honest (S := S) D.honestV (fun _ _ _ _ _ _ ht => by simp only [cutMeth, if_pos ht]) (fun _ _ _ _ _ _ ht => by simp only [cutMeth, if_neg ht])
  order := D.order
  valid := D.valid

/-- C72, C56: the bytes of every value whose own types meet the conditions. -/
theorem C72_bytes (D : TextReadyFor S W H M) {w : Addr} (hx : ReprE W.E H.mem (some (t, w)) (.iface t v)) (hm : MadeOf S (.iface t v))
    (hf : TimesFine W t v) {opts : List (Option Opt)} (ho : prepare opts = .ok o) {n : Nat} :
    (∀ b, marshalOpts W H n (some (t, w)) opts = .ret (some b) none → Writes W M o t (isPtrK (W.E t).kind) false v b) ∧
    (∀ dst out, appendOpts W H n dst (some (t, w)) opts = .ret (some out) none →
      ∃ b, out = dst ++ b ∧ Writes W M o t (isPtrK (W.E t).kind) false v b) := by
  obtain ⟨ht, hv⟩ := madeOf_iface hm
  have A := cut_sharing D.family M
  have key := C56_bytes (n := n) D.cut (cut_repr D.family hm hx).2 (A.timesFine ht hv hf) ho
  rw [A.same ht] at key
  refine ⟨fun b h => A.symm.writes (key.1 b ?_) ht hv, fun dst out h => ?_⟩
  · rw [← (cut_calls D.family D.ready hx hm n opts []).1]; exact h
  · obtain ⟨b, h1, h2⟩ := key.2 dst out (by rw [← (cut_calls D.family D.ready hx hm n opts dst).2]; exact h)
    exact ⟨b, h1, A.symm.writes h2 ht hv⟩

/-- The names of fields of a program cut down to the family are identifiers if those of the family are. -/
theorem cut_names (F : Family W.E W.ptrTo S) (hN : ∀ u fs sf, S u → HasFields W.E u fs → sf ∈ fs → GoIdent W.U.isLetter W.U.isDigit sf.name) :
    GoNames (cutWorld S W).U.isLetter (cutWorld S W).U.isDigit (cutWorld S W).E := by
  intro u fs sf hu hs
  by_cases hin : S u
  · exact hN u fs sf hin ((Family.cut F).hasFields hin |>.mp hu) hs
  · have hu' : (cutEnv S W.E u).kind = .struct fs := hu
    rcases cutEnv_out (E := W.E) hin with ⟨e, h1, -⟩ | h1 <;> rw [h1] at hu' <;> cases hu'

/-- C72, C30: the text is JSON, and its tree is that of the value. -/
theorem C72_document (D : TextReadyFor S W H M) (hN : ∀ u fs sf, S u → HasFields W.E u fs → sf ∈ fs → GoIdent W.U.isLetter W.U.isDigit sf.name)
    (he : bmHas o.flags .noStringEscaping = false) {w : Addr} (hx : ReprE W.E H.mem (some (t, w)) (.iface t v)) (hm : MadeOf S (.iface t v))
    (hf : AllFine W M o t v) {opts : List (Option Opt)} (ho : prepare opts = .ok o) {n : Nat} {b : Bytes}
    (h : marshalOpts W H n (some (t, w)) opts = .ret (some b) none) :
    ∃ j, CompactText j b ∧ Denotes W M o t (isPtrK (W.E t).kind) false v j := by
  obtain ⟨ht, hv⟩ := madeOf_iface hm
  have A := cut_sharing D.family M
  have C := D.cut
  have key := C30_document_partial (n := n) ⟨C.ready, C.fmt, C.honest, C.honestV, cut_names D.family hN, C.order, C.valid, he⟩ (cut_repr D.family hm hx).2
    (fun t' v' hw => by obtain ⟨h1, h2, h3⟩ := A.symm.within ht hv hw; exact A.fine h2 h3 (hf t' v' h1)) ho
  rw [A.same ht] at key
  obtain ⟨j, h1, h2⟩ := key.1 b (by rw [← (cut_calls D.family D.ready hx hm n opts []).1]; exact h)
  exact ⟨j, h1, A.symm.denotes h2 ht hv⟩

theorem TextReadyFor.faults (D : TextReadyFor S W H M) (hs : ∀ t s, S t → (W.E t).special = some s → (W.E t).meths.text = true → s = .time) :
    FaultReady (cutWorld S W) (cutHeap S H) (cutMeth S M) := by
  have C := D.cut
  refine ⟨C.ready, C.fmt, C.honestV, C.order, C.valid, ?_⟩
  intro u s
  show (cutEnv S W.E u).special = some s → (cutEnv S W.E u).meths.text = true → s = .time
  by_cases hin : S u
  · rw [cutEnv_in hin]; exact hs u s hin
  · intro h
    rcases cutEnv_out (E := W.E) hin with ⟨e, h1, -⟩ | h1 <;> rw [h1] at h <;> cases h

theorem cut_pathFree (hP : PathFree M) : PathFree (cutMeth S M) := by
  intro p q m c t v d
  unfold cutMeth
  split
  · exact hP p q m c t v d
  · rfl

/-- C72, C58: the error or panic is the first fault of the value. -/
theorem C72_error (D : TextReadyFor S W H M) (hs : ∀ t s, S t → (W.E t).special = some s → (W.E t).meths.text = true → s = .time)
    (hP : PathFree M) {w : Addr} (hx : ReprE W.E H.mem (some (t, w)) (.iface t v)) (hm : MadeOf S (.iface t v)) {opts : List (Option Opt)}
    (ho : prepare opts = .ok o) (n : Nat) (dst : Bytes) :
    (∀ r e, marshalOpts W H n (some (t, w)) opts = .ret r (some (.encoding e)) ∨ appendOpts W H n dst (some (t, w)) opts = .ret r (some (.encoding e)) →
      First W M o t (isPtrK (W.E t).kind) v (some e)) ∧
    (marshalOpts W H n (some (t, w)) opts = .panic ∨ appendOpts W H n dst (some (t, w)) opts = .panic → First W M o t (isPtrK (W.E t).kind) v none) := by
  obtain ⟨ht, hv⟩ := madeOf_iface hm
  have A := cut_sharing D.family M
  have e := cut_calls D.family D.ready hx hm n opts dst
  have k1 := fun {e'} => C58_error (e := e') (D.faults hs) (cut_pathFree hP) (cut_repr D.family hm hx).2 ho n dst
  have k2 := C58_panic (D.faults hs) (cut_pathFree hP) (cut_repr D.family hm hx).2 ho n dst
  rw [A.same ht, ← e.1, ← e.2] at k2
  simp only [A.same ht, ← e.1, ← e.2] at k1
  exact ⟨fun r e h => A.symm.first (k1 (h.imp (⟨r, ·⟩) (⟨r, ·⟩))) ht hv, fun h => A.symm.first (k2 h) ht hv⟩

/-- C72, C51: a call that ends succeeds on a value no part of which is at fault. -/
theorem C72_success (D : TextReadyFor S W H M) (hs : ∀ t s, S t → (W.E t).special = some s → (W.E t).meths.text = true → s = .time)
    {w : Addr} (hx : ReprE W.E H.mem (some (t, w)) (.iface t v)) (hm : MadeOf S (.iface t v)) {opts : List (Option Opt)}
    (ho : prepare opts = .ok o) (n : Nat) (dst : Bytes) (hn : marshalOpts W H n (some (t, w)) opts ≠ .nofuel)
    (hb : Blameless W M o t (isPtrK (W.E t).kind) v) :
    ∃ b, marshalOpts W H n (some (t, w)) opts = .ret (some b) none ∧ appendOpts W H n dst (some (t, w)) opts = .ret (some (dst ++ b)) none := by
  obtain ⟨ht, hv⟩ := madeOf_iface hm
  have A := cut_sharing D.family M
  have e := cut_calls D.family D.ready hx hm n opts dst
  rw [e.1] at hn
  rw [e.1, e.2]
  refine C51_success (D.faults hs) (cut_repr D.family hm hx).2 ho n dst hn ?_
  have := A.blameless ht hv hb
  rw [← A.same ht] at this
  exact this

theorem mixed_text : TextReadyFor BesideS mixedW mixedH (univM besideMeth) where
  family := by
    have F := Family.shares beside_family mixed_common
    exact ⟨F.symm.parts, F.symm.fields, beside_family.ptrTo⟩
  ready := mixed_ready
  fmt := toyFmt_contract
  honest := fun _ _ _ _ _ _ => .inr <| .inr ⟨b! "never", fun _ => rfl⟩
  honestV := fun _ _ _ _ _ _ => .inr <| .inr ⟨b! "never", fun _ => rfl⟩
  order := fun _ _ => List.reverse_perm _
  valid := validText_iff

/-- In the program with the fork, the value beside it has the text that `Writes` says. -/
example : Writes mixedW (univM besideMeth) defaultEncOpts 12 false false besideV
    (b! "{\"Err\":null,\"Ptrs\":[5],\"Any\":5,\"Set\":null,\"Done\":[]}") :=
  (C72_bytes (opts := []) mixed_text mixed_repr beside_made (timesB_fine (n := 6) (by decide +kernel)) rfl (n := 12)).1 _ (by decide +kernel)

end Jettison.Props
