import Verif.Props.Concerns
import Verif.Props.First

/-!
# C75: the results of two calls whose options treat the value alike are equal
-/

namespace Jettison.Props
open Jettison Jettison.Model Jettison.Spec Jettison.Proofs

variable {W : World} {M : MethV} {o o' : EncOpts} {t : TId} {ca : Bool} {v : Val}

theorem blameless_two (hU : Unconcerned W o o' t ca v) (h : Blameless W M o' t ca v) : Blameless W M o t ca v := by
  intro t' ca' v' he
  have he' := encodes_two he (unconcerned_symm hU)
  obtain ⟨h1, h2⟩ := h t' ca' v' he'
  have hU' : Unconcerned W o' o t' ca' v' := fun _ _ _ hp => unconcerned_symm hU _ _ _ (encodes_trans he' hp)
  exact ⟨fun e hf => h1 e (fault_two (hU' _ _ _ .refl) hf), fun ht => h2 (trap_two hU' ht)⟩

theorem unsorted_two {n : Nat} (hn : 0 < n) (h : OrderSame o o' n) : bmHas o.flags .unsortedMap = bmHas o'.flags .unsortedMap := by
  rcases h with h | ⟨h, -⟩
  · omega
  · exact h

theorem first_two {r : Option Err} (h : First W M o' t ca v r) : Unconcerned W o o' t ca v → First W M o t ca v r := by
  induction h with
  | fault h1 h2 => exact fun hU => .fault h1 (fault_two (hU _ _ _ .refl) h2)
  | method h1 h2 h3 h4 =>
    intro hU
    refine .method h1 h2 h3 (by rw [← argCtx_two (o := o) (o' := o') (by rintro rfl; exact unconcerned_of fun hn => hU _ _ _ .refl (.ctx h1 h2 h3 hn))]; exact h4)
  | ptr h1 h2 _ ih => exact fun hU => .ptr h1 h2 (ih (unconcerned_part hU (.ptr h1 h2)))
  | iface h1 h2 _ ih => exact fun hU => .iface h1 h2 (ih (unconcerned_part hU (.iface h1 h2)))
  | slice h1 h2 h3 h4 h5 _ ih =>
    subst h4
    exact fun hU => .slice h1 h2 h3 rfl (fun u hu => blameless_two (unconcerned_part hU (.slice h1 h2 h3 (by simp [hu]))) (h5 u hu))
      (ih (unconcerned_part hU (.slice h1 h2 h3 (by simp))))
  | @array _ _ _ u _ _ _ _ _ h1 h2 h3 h4 h5 _ ih =>
    subst h4
    intro hU
    have h3' : ¬ (ByteElem W.E u ∧ bmHas o.flags .byteArrayAsString = true) := fun ⟨g1, g2⟩ => by
      have hf : SameFlag .byteArrayAsString o o' := unconcerned_of fun hn => hU _ _ _ .refl (.array h1 h2 g1 hn)
      exact h3 ⟨g1, hf ▸ g2⟩
    exact .array h1 h2 h3' rfl (fun x hx => blameless_two (unconcerned_part hU (.array h1 h2 h3' (by simp [hx]))) (h5 x hx))
      (ih (unconcerned_part hU (.array h1 h2 h3' (by simp))))
  | field h1 h2 h3 h4 h5 h6 h7 _ ih =>
    subst h4
    intro hU
    have lo : ∀ {m'}, ChosenField W.U.isLetter W.U.isDigit W.E _ m' → (LeftOut o _ m' ↔ LeftOut o' _ m') := fun hm => leftOut_same h1 h2 hm (hU _ _ _ .refl)
    have hm := (h3.2 _).mp (List.mem_append_right _ (List.mem_cons_self ..))
    refine .field h1 h2 h3 rfl (fun m' hm' hl y hy => ?_) (fun h => h6 ((lo hm).mp h)) h7
      (ih (unconcerned_part hU (.field h1 h2 hm (fun h => h6 ((lo hm).mp h)) h7)))
    have hm2 := (h3.2 m').mp (List.mem_append_left _ hm')
    exact blameless_two (unconcerned_part hU (.field h1 h2 hm2 hl hy)) (h5 m' hm' (fun h => hl ((lo hm2).mpr h)) y hy)
  | key h1 h2 h3 h4 h5 h6 _ ih => exact fun hU => .key h1 h2 h3 h4 h5 h6 (ih (unconcerned_part hU (.key h1 h2 h3 h4 h5 h6)))
  | short h1 h2 h3 h4 h5 h6 h7 =>
    intro hU
    have he := Encodes1.key (o := o) h1 h2 (.inr (.inr (shortKey_text h7))) h3 (fun _ => shortKey_nil h7) h5
    have hU' := unconcerned_part hU he
    refine .short h1 h2 h3 ?_ h5 (fun hn => blameless_two hU' (h6 hn)) (shortKey_two (hU' _ _ _ .refl) h7)
    rw [unsorted_two (List.length_pos_of_mem h5) (unconcerned_of fun hn => hU _ _ _ .refl (.order h1 h2 hn))]
    exact h4
  | elem h1 h2 h3 h4 h5 _ ih =>
    intro hU
    refine .elem h1 h2 h3 h4 (fun hks => ?_) (ih (unconcerned_part hU (.elem h1 h2 h3 h4)))
    obtain ⟨g1, g2⟩ := h5 hks
    refine ⟨fun hn => blameless_two (unconcerned_part hU (.key h1 h2 h3 hks hn h4)) (g1 hn), fun hf hsk => ?_⟩
    have hU' := unconcerned_part hU (.key h1 h2 h3 hks (fun _ => shortKey_nil hsk) h4)
    refine g2 ?_ (shortKey_two (not_concerned_symm (hU' _ _ _ .refl)) hsk)
    rw [← unsorted_two (List.length_pos_of_mem h4) (unconcerned_of fun hn => hU _ _ _ .refl (.order h1 h2 hn))]
    exact hf
  | nilKey h1 h2 h3 => exact fun _ => .nilKey h1 h2 h3
  | badKey h1 h2 h3 h4 => exact fun _ => .badKey h1 h2 h3 h4
  | skey h1 h2 h3 h4 h5 _ ih => exact fun hU => .skey h1 h2 h3 h4 h5 (ih (unconcerned_part hU (.skey h1 h2 h3 h4 h5)))
  | sshort h1 h2 h3 h4 h5 h6 h7 =>
    intro hU
    have hU' := unconcerned_part hU (.skey h1 h3 h4 (.inr (.inr (shortKey_text h7))) h5)
    refine .sshort h1 ?_ h3 h4 h5 (blameless_two hU' h6) (shortKey_two (hU' _ _ _ .refl) h7)
    rw [unsorted_two (List.length_pos_of_mem h3) (unconcerned_of fun hn => hU _ _ _ .refl (.sorder h1 hn))]
    exact h2
  | nilElem h1 h2 h3 h4 => exact fun hU => .nilElem h1 h2 (syncKeyPasses_two hU h1 h2 h3) h4
  | selem h1 h2 h3 h4 _ ih => exact fun hU => .selem h1 h2 (syncKeyPasses_two hU h1 h2 h3) h4 (ih (unconcerned_part hU (.selem h1 h2 h4)))
where
  syncKeyPasses_two {t : TId} {ca : Bool} {kvs : List (Val × Val)} {kv : Val × Val} (hU : Unconcerned W o o' t ca (.smap kvs)) (h1 : (W.E t).special = some .syncMap)
      (h2 : kv ∈ kvs) (h : SyncKeyPasses W M o' kv.1) : SyncKeyPasses W M o kv.1 := by
    obtain ⟨d, v, e, hk, h⟩ := h
    refine ⟨d, v, e, hk, fun hs => ?_⟩
    obtain ⟨g1, g2⟩ := h hs
    have hU' := unconcerned_part hU (.skey h1 h2 e hk hs)
    refine ⟨blameless_two hU' g1, fun hf hsk => g2 ?_ (shortKey_two (not_concerned_symm (hU' _ _ _ .refl)) hsk)⟩
    rw [← unsorted_two (List.length_pos_of_mem h2) (unconcerned_of fun hn => hU _ _ _ .refl (.sorder h1 hn))]
    exact hf

/-- C75: two calls whose options treat the value alike have the same result: text, error or panic, if
not several entries of one map are at fault (of which any may be met first). -/
theorem C75_result {g n : Nat} {S : List TId} {c : Call} (hc : FiniteCall W g n c S M) (D : FaultReady (c.world W) c.heap M) (D' : WriteReady (c.world W) c.heap M)
    (hP : PathFree M) {w : Addr} (hv : c.value = some (t, w)) (hx : ReprE W.E c.heap.mem (some (t, w)) (.iface t v)) (hf : TimesFine (c.world W) t v)
    (hd : KeysTold (c.world W) M o t v) (hone : OneEntry (c.world W) M o t (isPtrK (W.E t).kind) v) {opts opts' : List (Option Opt)}
    (ho : prepare opts = .ok o) (ho' : prepare opts' = .ok o') (hU : Unconcerned (c.world W) o o' t (isPtrK (W.E t).kind) v) :
    marshalOpts (c.world W) c.heap n (some (t, w)) opts = marshalOpts (c.world W) c.heap n (some (t, w)) opts' := by
  have same := fun b => C75_same hc D D' hP hv hx hf hd ho ho' hU b
  obtain ⟨i1, i2⟩ := C58_iff hc D hP hv hx ho hone
  obtain ⟨e1, -⟩ := calls_by D.fmt D hx ho' n []
  have ends := appendJSON_ends hc hv o' [] []
  have nobad := appendJSON_nobad (run_sound (o := o') D.ready n).2 hx [] []
  cases hr : appendJSON (c.world W) (run (c.world W) c.heap o' n) [] (some (t, w)) [] with
  | ok b =>
    rw [hr] at e1
    rw [e1]
    exact (same b).mpr e1
  | fail e b =>
    rw [hr] at e1
    rw [e1]
    exact (i1 e).mpr (first_two (C58_error D hP hx ho' n [] (.inl ⟨_, e1⟩)) hU)
  | panic =>
    rw [hr] at e1
    rw [e1]
    exact i2.mpr (first_two (C58_panic D hP hx ho' n [] (.inl e1)) hU)
  | bad => exact absurd hr nobad
  | nofuel => exact absurd hr ends

end Jettison.Props
