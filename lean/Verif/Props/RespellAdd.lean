import Verif.Props.Milder
import Verif.Props.RespellEx

/-!
# C78: adding options about spelling

Options about spelling added to a call that succeeds neither make it fail (C79) nor change the data.
-/

namespace Jettison.Props
open Jettison Jettison.Model Jettison.Spec Jettison.Proofs

variable {W : World} {M : MethV} {o o' : EncOpts} {t : TId} {v : Val}

theorem spelling_apply (extra : List (Option Opt)) (hm : ∀ x ∈ extra, ∃ f, x = some (.flag f) ∧ SpellingFlag f) (o : EncOpts) :
    SpellAlike o (o.apply extra) := by
  induction extra generalizing o with
  | nil => exact ⟨rfl, rfl, rfl, rfl, rfl, fun _ _ => rfl⟩
  | cons x l ih =>
    obtain ⟨f, rfl, hf⟩ := hm _ (.head _)
    obtain ⟨h1, h2, h3, h4, h5, h6⟩ := ih (fun y hy => hm y (.tail _ hy)) (Opt.run (.flag f) o)
    refine ⟨h1, h2, h3, h4, h5, fun g hg => ?_⟩
    refine Eq.trans ?_ (h6 g hg)
    rw [show (Opt.run (.flag f) o).flags = bmSet o.flags f from rfl, bmHas_set]
    have : ¬ f = g := fun e => hg (e ▸ hf)
    simp [this]

/-- C78: options about spelling, added to a call that succeeds: the call still does and writes the same data. -/
theorem C78_added_partial {g n : Nat} {S : List TId} {c : Call} (hc : FiniteCall W g n c S M) (D : FaultReady (c.world W) c.heap M) (D' : WriteReady (c.world W) c.heap M)
    (hN : GoNames W.U.isLetter W.U.isDigit W.E) (hP : PathFree M) {w : Addr} (hv : c.value = some (t, w)) (hx : ReprE W.E c.heap.mem (some (t, w)) (.iface t v))
    (hf : TimesFine (c.world W) t v) {opts extra : List (Option Opt)} (ho : prepare opts = .ok o) (hm : ∀ x ∈ extra, ∃ f, x = some (.flag f) ∧ SpellingFlag f)
    (hu : Unspoilt Ws (c.world W) M o t (isPtrK (W.E t).kind) v) (hS : Settled (c.world W) o t v) {n0 : Nat} {b : Bytes}
    (h : marshalOpts (c.world W) c.heap n0 (some (t, w)) opts = .ret (some b) none) :
    ∃ b', marshalOpts (c.world W) c.heap n (some (t, w)) (opts ++ extra) = .ret (some b') none ∧ SameTree b b' := by
  have hmild : ∀ x ∈ extra, Mild x := by
    intro x hx
    obtain ⟨f, rfl, hf⟩ := hm x hx
    exact .flag (by rcases hf with rfl | rfl | rfl | rfl <;> decide)
  obtain ⟨b', h'⟩ := C79_adding hc D hP hv hx h hmild
  obtain ⟨o', ho', -⟩ := C79_options ho hmild
  obtain ⟨e1, e2⟩ := prepare_iff.mp ho
  have e3 := (prepare_iff.mp ho').1
  rw [apply_append, ← e1] at e3
  exact ⟨b', h', (C78_calls_partial (W := c.world W) D' hN hP hx hf ho ho' (e3 ▸ spelling_apply extra hm o) hu hS).1 _ _ h h'⟩

/-- The hypotheses of `C78_added_partial`. -/
example : ∃ b', marshalOpts (ringB.world shopW) ringB.heap 200 (some (129, 500)) ([] ++ spellOpts) = .ret (some b') none ∧
    SameTree (b! "{\"N\":1,\"Next\":{\"N\":2,\"Next\":null}}") b' := by
  have ht : HasType shopW.E 129 ringV := by
    cases repr_inIface ringV_holds with
    | val h => exact h
  have hall : AllFine (ringB.world shopW) (univM shopMeth) defaultEncOpts 129 ringV :=
    fun _ _ h => fineB_fine (allParts_within (n := 6) (P := fineB) (by decide +kernel) h)
  obtain ⟨hu, hS⟩ := C78_fine (W := ringB.world shopW) (ca := isPtrK (shopW.E 129).kind) (shop_ready ringCells).types ht (by decide +kernel) hall
  refine C78_added_partial (n0 := 200) ringB_finite (shop_faults ringCells) (shop_writes ringCells) shop_names shop_pathFree (w := 500) rfl ringV_holds
    (timesB_fine (n := 6) (by decide +kernel)) rfl ?_ hu hS (by decide +kernel)
  intro x hx
  simp only [spellOpts, List.mem_cons, List.not_mem_nil, or_false] at hx
  rcases hx with rfl | rfl | rfl | rfl
  · exact ⟨_, rfl, .inl rfl⟩
  · exact ⟨_, rfl, .inr (.inl rfl)⟩
  · exact ⟨_, rfl, .inr (.inr (.inl rfl))⟩
  · exact ⟨_, rfl, .inr (.inr (.inr rfl))⟩

end Jettison.Props
