import Verif.Proofs.LocalC
import Verif.Props.LocalText
import Verif.Props.CutText
import Verif.Props.Spoils

/-!
# C72: what is left beside an error and what makes a text malformed, with conditions on the types of the value only

C66 and C73 for a value in any program with its types, as `LocalText` for C30, C51, C56 and C58.
-/

namespace Jettison.Props
open Jettison Jettison.Spec Jettison.Model Jettison.Proofs

variable {S : TId → Prop} {W : World} {H : Heap} {M : MethV} {o : EncOpts} {t : TId} {v : Val}

/-- C72, C66: what `AppendOpts` returns beside an error: what it was given, and what is described, which is not JSON. -/
theorem C72_cut (D : TextReadyFor S W H M) (hs : ∀ t s, S t → (W.E t).special = some s → (W.E t).meths.text = true → s = .time)
    {w : Addr} (hx : ReprE W.E H.mem (some (t, w)) (.iface t v)) (hm : MadeOf S (.iface t v)) (hf : TimesFine W t v)
    {opts : List (Option Opt)} (ho : prepare opts = .ok o) {n : Nat} {dst : Bytes} {r : Option Bytes} {e : Err}
    (h : appendOpts W H n dst (some (t, w)) opts = .ret r (some (.encoding e))) :
    ∃ c, r = some (dst ++ c) ∧ Cut W M o t (isPtrK (W.E t).kind) false v e c ∧ ∀ j, ¬ JsonText j c := by
  obtain ⟨ht, hv⟩ := madeOf_iface hm
  have A := cut_sharing D.family M
  rw [(cut_calls D.family D.ready hx hm n opts dst).2] at h
  obtain ⟨c, h1, h2⟩ := C66_cut D.cut (D.faults hs).std (cut_repr D.family hm hx).2 (A.timesFine ht hv hf) ho h
  rw [A.same ht] at h2
  exact ⟨c, h1, A.symm.cut h2 ht hv, C66_no_text h2⟩

/-- C72, C73: a text that is not JSON has a cause in a part of the value. -/
theorem C72_malformed (D : TextReadyFor S W H M) (hN : ∀ u fs sf, S u → HasFields W.E u fs → sf ∈ fs → GoIdent W.U.isLetter W.U.isDigit sf.name)
    {w : Addr} (hx : ReprE W.E H.mem (some (t, w)) (.iface t v)) (hm : MadeOf S (.iface t v)) (hf : TimesFine W t v)
    {opts : List (Option Opt)} (ho : prepare opts = .ok o) {n : Nat} {b : Bytes}
    (h : marshalOpts W H n (some (t, w)) opts = .ret (some b) none) (hb : ¬ ∃ j, JsonText j b) :
    ∃ t' ca' v', Encodes W o t (isPtrK (W.E t).kind) v t' ca' v' ∧ (Spoils Ws W M o t' ca' v' ∨ SpoilsMember Ws W M o t' ca' v') := by
  obtain ⟨ht, hv⟩ := madeOf_iface hm
  have A := cut_sharing D.family M
  rw [(cut_calls D.family D.ready hx hm n opts []).1] at h
  obtain ⟨t', ca', v', h1, h2⟩ := (C73_malformed D.cut (cut_names D.family hN) (cut_repr D.family hm hx).2 (A.timesFine ht hv hf) ho).1 b h hb
  rw [A.same ht] at h1
  obtain ⟨h3, h4, h5⟩ := A.symm.encodes h1 ht hv
  exact ⟨t', ca', v', h3, h2.imp (fun h => A.symm.spoils h h4 h5) (fun h => A.symm.spoilsMember h h4 h5)⟩

/-! ## In the program with the fork -/

/-- The value with a text in the interface and channels in the slice. -/
def lateV (vs : List Val) : Val := .struct [.nil, .array [.ptr (.int (.int 5))], .iface 2 (.str (b! "a\"b")), .nil, .slice vs]

def lateH (n : Nat) : Heap := univHeap besideDefs besideMeth
  [(900, .eface (some (100, 1000))), (100, .iface none), (116, .word 500), (124, .eface (some (2, 700))), (140, .word 0), (148, .slice 600 n),
    (500, .int (.int 5)), (700, .str (b! "a\"b"))]

theorem late_text (n : Nat) : TextReadyFor BesideS mixedW (lateH n) (univM besideMeth) :=
  { mixed_text with
    ready := ReadyFor.common (Ready.for (univ_ready beside_ok besideMeth _) BesideS) beside_family mixed_common mixed_types
    honest := fun _ _ _ _ _ _ => .inr <| .inr ⟨b! "never", fun _ => rfl⟩ }

theorem late_made {vs : List Val} (h : ∀ v ∈ vs, v = .opaque) : MadeOf BesideS (.iface 12 (lateV vs)) := by
  refine .iface (.own (by decide)) (.struct fun v hv => ?_)
  simp only [List.mem_cons, List.not_mem_nil, or_false] at hv
  rcases hv with rfl | rfl | rfl | rfl | rfl
  · exact .nil
  · refine .array fun v hv => ?_
    obtain rfl := List.mem_singleton.mp hv
    exact .ptr .int
  · exact .iface (.own (by decide)) .str
  · exact .nil
  · refine .slice fun v hv => ?_
    rw [h v hv]
    exact .opaque

theorem late_repr {n : Nat} {vs : List Val} (h : ∀ v ∈ vs, v = .opaque) (hr : ReprE (univE besideDefs) (lateH n).mem (some (12, 100)) (.iface 12 (lateV vs))) :
    ReprE mixedE (lateH n).mem (some (12, 100)) (.iface 12 (lateV vs)) :=
  (((Family.shares beside_family mixed_common).repr_both fun _ _ hc _ => hc).2 hr (late_made h)).2

theorem mixed_special (t : TId) : (mixedE t).special = none := by
  have none' : ∀ t, (univE besideDefs t).special = none :=
    univ_all (P := fun _ d => d.special = none) (fun _ _ => rfl) (fun _ => rfl) (by decide +kernel)
  unfold mixedE
  repeat' split
  all_goals first | rfl | exact none' t

/-- The channel is not supported; what comes before it is there. -/
example : Cut mixedW (univM besideMeth) defaultEncOpts 12 false false (lateV [.opaque]) (.unsupportedType 14)
    (b! "{\"Err\":null,\"Ptrs\":[5],\"Any\":\"a\\\"b\",\"Set\":null,\"Done\":[") := by
  have ho : ∀ v ∈ [Val.opaque], v = .opaque := fun v hv => List.mem_singleton.mp hv
  obtain ⟨c, h1, h2, -⟩ := C72_cut (opts := []) (n := 12) (dst := b! "dst:") (late_text 1)
    (fun t s _ h => by rw [show mixedW.E = mixedE from rfl, mixed_special] at h; cases h)
    (late_repr ho (univ_repr 6 (by decide +kernel))) (late_made ho) (timesB_fine (n := 6) (by decide +kernel)) rfl
    (show appendOpts mixedW (lateH 1) 12 (b! "dst:") (some (12, 100)) [] =
      .ret (some (b! "dst:" ++ b! "{\"Err\":null,\"Ptrs\":[5],\"Any\":\"a\\\"b\",\"Set\":null,\"Done\":[")) (some (.encoding (.unsupportedType 14))) by decide +kernel)
  rw [List.append_cancel_left (Option.some.inj h1)]
  exact h2

def plainOpts : EncOpts := Opt.run (.flag .noStringEscaping) defaultEncOpts

theorem mixed_ident (u : TId) (fs : List FieldDef) (sf : FieldDef) (hu : BesideS u) (hf : HasFields mixedW.E u fs) (hs : sf ∈ fs) :
    GoIdent asciiTab.isLetter asciiTab.isDigit sf.name := by
  have hn : GoNames asciiTab.isLetter asciiTab.isDigit (univE besideDefs) := univ_names (by decide +kernel)
  exact hn u fs sf ((Family.shares beside_family mixed_common).hasFields hu |>.mp hf) hs

/-- Without escapes, the text of the interface spoils the whole. -/
example : ∃ t' ca' v', Encodes mixedW plainOpts 12 false (lateV []) t' ca' v' ∧
    (Spoils Ws mixedW (univM besideMeth) plainOpts t' ca' v' ∨
      SpoilsMember Ws mixedW (univM besideMeth) plainOpts t' ca' v') := by
  have ho : ∀ v ∈ ([] : List Val), v = .opaque := fun v hv => nomatch hv
  exact C72_malformed (n := 12) (late_text 0) mixed_ident (late_repr ho (univ_repr 6 (by decide +kernel))) (late_made ho)
    (timesB_fine (n := 6) (by decide +kernel)) (show prepare [some (.flag .noStringEscaping)] = _ from rfl)
    (show marshalOpts mixedW (lateH 0) 12 (some (12, 100)) [some (.flag .noStringEscaping)] =
      .ret (some (b! "{\"Err\":null,\"Ptrs\":[5],\"Any\":\"a\"b\",\"Set\":null,\"Done\":[]}")) none by decide +kernel)
    (fun ⟨_, h⟩ => not_jsonText (by decide +kernel) _ h)

end Jettison.Props
