import Verif.Spec.Methods
import Verif.Props.Levels
import Verif.Props.Compact
import Verif.Proofs.Parser
import Verif.Props.Scope

/-!
# Custom methods (C26, C45, C46)
-/

namespace Jettison.Proofs
open Jettison Jettison.Spec Jettison.Model

theorem has_appendCtx (s : MethSet) : MethSet.Has s .appendCtx ↔ s.appendCtx = true := by simp [MethSet.Has]
theorem has_append (s : MethSet) : MethSet.Has s .append ↔ s.append = true := by simp [MethSet.Has]
theorem has_json (s : MethSet) : MethSet.Has s .json ↔ s.json = true := by simp [MethSet.Has]
theorem has_text (s : MethSet) : MethSet.Has s .text ↔ s.text = true := by simp [MethSet.Has]

/-- Membership of a method, as a boolean. -/
def hasB (s : MethSet) : MethKind → Bool
  | .appendCtx => s.appendCtx
  | .append => s.append
  | .json => s.json
  | .text => s.text

theorem hasB_iff (s : MethSet) (m : MethKind) : MethSet.Has s m ↔ hasB s m = true := by
  cases m <;> simp [MethSet.Has, hasB]

theorem isPtr_iff (E : Env) (t : TId) : IsPtr E t ↔ isPtrK (E t).kind = true := by
  unfold IsPtr; rw [isPtrK_iff]

theorem available_iff {E : Env} {t : TId} {ca : Bool} {m : MethKind} {a b : Bool} (ha : MethSet.Has (E t).meths m ↔ a = true)
    (hb : MethSet.Has (E t).pmeths m ↔ b = true) :
    Available E t ca m ↔ (a || (!isPtrK (E t).kind && ca && b)) = true := by
  unfold Available
  rw [isPtr_iff, ha, hb]
  cases a <;> cases b <;> cases ca <;> cases isPtrK (E t).kind <;> simp

/-- The instruction of the method picked. -/
theorem picks_instr {E : Env} {t : TId} {ca : Bool} {m : MethKind} (h : Picks E t ca m) :
    newMarshalerTypeInstr E t ca = some (.marshaler m t (!hasB (E t).meths m)) := by
  obtain ⟨ha, hb⟩ := h
  have a0 := available_iff (ca := ca) (has_appendCtx (E t).meths) (has_appendCtx (E t).pmeths)
  have a1 := available_iff (ca := ca) (has_append (E t).meths) (has_append (E t).pmeths)
  have a2 := available_iff (ca := ca) (has_json (E t).meths) (has_json (E t).pmeths)
  have a3 := available_iff (ca := ca) (has_text (E t).meths) (has_text (E t).pmeths)
  have b0 := hb .appendCtx
  have b1 := hb .append
  have b2 := hb .json
  rw [a0] at b0
  rw [a1] at b1
  rw [a2] at b2
  unfold newMarshalerTypeInstr
  simp only
  generalize (!isPtrK (E t).kind && ca) = p at *
  cases m
  · rw [a0] at ha
    simp only [hasB]
    revert ha
    cases (E t).meths.appendCtx <;> cases (E t).pmeths.appendCtx <;> cases p <;> simp
  · rw [a1] at ha
    simp only [hasB]
    have b0 := b0 (by decide)
    revert ha b0
    cases (E t).meths.appendCtx <;> cases (E t).pmeths.appendCtx <;> cases (E t).meths.append <;> cases (E t).pmeths.append <;> cases p <;> simp
  · rw [a2] at ha
    simp only [hasB]
    have b0 := b0 (by decide)
    have b1 := b1 (by decide)
    revert ha b0 b1
    cases (E t).meths.appendCtx <;> cases (E t).pmeths.appendCtx <;> cases (E t).meths.append <;> cases (E t).pmeths.append <;>
      cases (E t).meths.json <;> cases (E t).pmeths.json <;> cases p <;> simp
  · rw [a3] at ha
    simp only [hasB]
    have b0 := b0 (by decide)
    have b1 := b1 (by decide)
    have b2 := b2 (by decide)
    revert ha b0 b1 b2
    cases (E t).meths.appendCtx <;> cases (E t).pmeths.appendCtx <;> cases (E t).meths.append <;> cases (E t).pmeths.append <;>
      cases (E t).meths.json <;> cases (E t).pmeths.json <;> cases (E t).meths.text <;> cases (E t).pmeths.text <;> cases p <;> simp

theorem picks_made {E : Env} {t : TId} {ca q : Bool} {m : MethKind} {i : Instr} {k : Nat} (hs : (E t).special = none) (h : Picks E t ca m)
    (hm : newInstruction E k t ca q = some i) : i = .marshaler m t (!hasB (E t).meths m) := by
  obtain ⟨k, rfl⟩ := byKind_pos hm
  simp only [newInstruction, newGoTypeInstr, hs, Option.map_none, picks_instr h] at hm
  simpa using hm.symm

theorem ifaceK_none {E : Env} {t : TId} (h : ¬ IsIface E t) : ifaceK (E t).kind = none := by
  cases hk : (E t).kind <;> simp [ifaceK]
  exact h ⟨_, hk⟩

theorem ifaceK_some {E : Env} {t : TId} (h : IsIface E t) : ∃ n, ifaceK (E t).kind = some n := by
  obtain ⟨n, hn⟩ := h
  exact ⟨n, by rw [hn]; rfl⟩

theorem callMeth_relays {W : World} {o : EncOpts} (hv : ValidContract W.jsonValid) (m : MethKind) (u : TId) (call : Option Ctx → Bytes → MethRes)
    (dst : Bytes) : Relays o u call dst m (callMeth W o m u call dst) := by
  cases m
  · simp only [callMeth]
    cases h : call o.ctx dst with
    | ok d => exact .ctx h
    | err e => exact .ctxErr h
    | panic => exact .ctxPanic h
  · simp only [callMeth]
    cases h : call none dst with
    | ok d => exact .app h
    | err e => exact .appErr h
    | panic => exact .appPanic h
  · simp only [callMeth]
    cases h : call none [] with
    | err e => exact .jsonErr h
    | panic => exact .jsonPanic h
    | ok b =>
      simp only [relayJSON]
      cases hc : bmHas o.flags .noCompact with
      | true => exact .verbatim h hc
      | false =>
        simp only [Bool.false_eq_true, if_false]
        cases hj : W.jsonValid b with
        | false =>
          simp only [Bool.not_false, if_true]
          refine .malformed h hc fun j hj' => ?_
          rw [(hv b).mpr ⟨j, hj'⟩] at hj
          cases hj
        | true =>
          obtain ⟨j, hj⟩ := (hv b).mp hj
          obtain ⟨c, h1, h2⟩ := Props.C14_compact_value dst b (!bmHas o.flags .noHTMLEscaping) j hj
          simp only [Bool.not_true, Bool.false_eq_true, if_false, h1]
          refine .compacted h hc hj h2 fun hh => ?_
          obtain ⟨c', h3, h4⟩ := Props.C47_compact_html_safe dst b
          rw [hh, Bool.not_false, h3] at h1
          cases List.append_cancel_left h1
          exact h4
  · simp only [callMeth]
    cases h : call none [] with
    | ok b =>
      have := Relays.text (o := o) (u := u) (call := call) (dst := dst) h
      simpa [strToken] using this
    | err e => exact .textErr h
    | panic => exact .textPanic h

end Jettison.Proofs

namespace Jettison.Proofs
open Jettison Jettison.Spec Jettison.Model

variable {W : World} {M M' : MethV} {o : EncOpts} {rec : RecV} {pt : TId → TId} {t : TId} {v : Val}

/-- Two assignments of methods agree on the value and its parts. -/
def SameMeths (E : Env) (ptrTo : TId → TId) (M M' : MethV) (t : TId) (v : Val) : Prop :=
  ∀ t' v', Within E t v t' v' → (E t').special = none → ∀ m rt x u, Receives E ptrTo t' m v' rt x u →
    ∀ path c d, M path m c rt x d = M' path m c rt x d

theorem sameMeths_part {E : Env} {ptrTo : TId → TId} {t' : TId} {v' : Val} (h : SameMeths E ptrTo M M' t v) (hp : Part E t v t' v') :
    SameMeths E ptrTo M M' t' v' :=
  fun _ _ hw => h _ _ (within_trans (.step .refl hp) hw)

theorem execV_meths (G : GoTypes W.E W.ptrTo) {ca : Bool} {i : Instr} (hty : TypedI W.E t ca i) (hv : HasType W.E t v)
    (hu : SameMeths W.E W.ptrTo M M' t v) (path : Path) (dst : Bytes) :
    execV W M o rec path i v dst = execV W M' o rec path i v dst := by
  have hh := hu _ _ .refl
  rcases hty with hty | ⟨j, rfl, hj⟩
  · cases hty with
    | @marsh _ _ m hm hs =>
      simp only [execV, encodeMarshalerV, receiverV, Bool.not_false, Bool.true_and, Bool.false_eq_true, if_false]
      cases hk : ifaceK (W.E t).kind with
      | some n =>
        have hi : IsIface W.E t := by
          revert hk
          cases hk : (W.E t).kind <;> simp [ifaceK]
          exact fun _ => ⟨_, hk⟩
        cases v with
        | iface d x =>
          have := hh hs m d x t (.dyn hm hi) path
          simp [this]
        | _ => rfl
      | none =>
        have hi : ¬ IsIface W.E t := by
          rintro ⟨n, hn⟩
          rw [hn] at hk
          cases hk
        simp only [Option.isSome_none, Bool.or_false]
        split
        · cases v with
          | nil => rfl
          | _ =>
            have := hh hs m t _ t (.own hm hi (by simp)) path
            simp [this]
        · next hp =>
          have := hh hs m t _ t (.own hm hi (fun h => absurd ((isPtr_iff _ _).mp h) hp)) path
          simp [this]
    | @marshP _ _ m hn hm hc hk hs =>
      have hp : ifaceK (W.E (W.ptrTo t)).kind = none := by rw [G.ptrTo_kind]; rfl
      have := hh hs m _ _ _ (.addr hn hm) path
      simp only [execV, encodeMarshalerV, receiverV, Bool.not_true, Bool.false_and, Bool.false_eq_true, if_false, if_true, hp]
      simp [this]
    | _ => rfl
  · rfl

end Jettison.Proofs

namespace Jettison.Props
open Jettison Jettison.Spec Jettison.Model Jettison.Proofs

variable {W : World} {H : Heap} {M : MethV} {o : EncOpts} {t : TId} {ca q : Bool} {i : Instr} {p : Loc} {v : Val}

/-- The first available method is called, on the value or on a pointer to it. -/
theorem meth_call (R : Ready W H M) (S : Stands W H t ca q i p v) (hs : (W.E t).special = none) {m : MethKind} (hm : Picks W.E t ca m)
    {rt : TId} {x : Val} {u : TId} (hr : Receives W.E W.ptrTo t m v rt x u) (n : Nat) (path : Path) (dst : Bytes) :
    run W H o (n + 1) path i p dst = callMeth W o m u (fun c d => M path m c rt x d) dst := by
  rw [stands_runV R S]
  obtain ⟨k, hmade⟩ := S.made
  have hi := picks_made hs hm hmade
  subst hi
  simp only [runV, execV, encodeMarshalerV]
  cases hr with
  | own hh hi hp' =>
    have hb := (hasB_iff _ _).mp hh
    simp only [hb, Bool.not_true, Bool.false_eq_true, if_false, receiverV, ifaceK_none hi, Bool.not_false, Bool.true_and,
      Option.isSome_none, Bool.or_false]
    split
    · next hp =>
      cases v <;> try rfl
      exact absurd rfl (hp' ((isPtr_iff _ _).mpr hp))
    · rfl
  | dyn hh hi =>
    obtain ⟨n, hn⟩ := ifaceK_some hi
    have hb := (hasB_iff _ _).mp hh
    simp [hb, receiverV, hn]
  | addr hh _ =>
    have hk : ifaceK (W.E (W.ptrTo t)).kind = none := by rw [R.types.ptrTo_kind]; rfl
    have hb : hasB (W.E t).meths m = false := by
      rw [hasB_iff] at hh
      simpa using hh
    simp [hb, receiverV, hk]

/-- C26, C46: a value of a type with an available method is encoded by the first of them
in the order of precedence, called on the value or, if only a pointer has it, on a
pointer to the value; the result is relayed as `Relays` says. Partial: `MarshalText`
results are put between quotes as they are (finding 2). -/
theorem C26_C46_relay_partial (R : Ready W H M) (hv : ValidContract W.jsonValid) (S : Stands W H t ca q i p v) (hs : (W.E t).special = none) {m : MethKind} (hm : Picks W.E t ca m)
    {rt : TId} {x : Val} {u : TId}
    (hr : Receives W.E W.ptrTo t m v rt x u) (n : Nat) (path : Path) (dst : Bytes) :
    Relays o u (fun c d => M path m c rt x d) dst m (run W H o (n + 1) path i p dst) := by
  rw [meth_call R S hs hm hr]
  exact callMeth_relays hv m u _ dst

/-- C26: methods are called on nothing but the value and its parts, never on a value of a
natively supported type, and never on a nil pointer or interface: if two assignments of
methods agree on what can be called, the results are the same. -/
theorem C26_calls {H' : Heap} {M' : MethV} (R : Ready W H M) (R' : Ready W H' M') (hmem : H'.mem = H.mem) {w : Addr}
    (h : ReprE W.E H.mem (some (t, w)) (.iface t v))
    (hc : ∀ t' v', Within W.E t v t' v' → (W.E t').special = none → ∀ m rt x u, Receives W.E W.ptrTo t' m v' rt x u →
      ∀ path c d, M path m c rt x d = M' path m c rt x d) (n : Nat) (dst : Bytes) (opts : List (Option Opt)) :
    appendOpts W H n dst (some (t, w)) opts = appendOpts W H' n dst (some (t, w)) opts := by
  have hv : HasType W.E t v := by
    cases repr_inIface h with
    | val h => exact h
  have key : ∀ o path dst, appendJSON W (run W H o n) path (some (t, w)) dst = appendJSON W (run W H' o n) path (some (t, w)) dst := by
    intro o path dst
    rw [appendJSON_eq (run_agrees R n).2 h, appendJSON_eq (run_agrees R' n).2 (hmem ▸ h)]
    simp only [appendJSONV]
    cases hi : instrFor W.E W.tfuel t with
    | none => rfl
    | some i =>
      exact runV_parts (Good := SameMeths W.E W.ptrTo M M') R.types (fun _ _ _ _ h hp => sameMeths_part h hp)
        (fun t ca i v rec path dst hty hv hu => execV_meths R.types hty hv hu path dst) n (instrFor_typedI hi) hv hc path dst
  simp only [appendOpts, appendTop, key]

/-- C45: a nil pointer or interface whose type has a method is `null`; no method is called
(the outcome is the same whatever the methods do). -/
theorem C45_nil_receiver (R : Ready W H M) (S : Stands W H t ca q i p .nil) (hs : (W.E t).special = none) (hk : IsPtr W.E t ∨ IsIface W.E t)
    (hi : IsIface W.E t → ¬ MethSet.any (W.E t).pmeths) (hm : MethSet.any (W.E t).meths) (n : Nat) (path : Path) (dst : Bytes) :
    run W H o (n + 1) path i p dst = .ok (dst ++ b! "null") := by
  rw [stands_runV R S]
  obtain ⟨k, hmade⟩ := S.made
  obtain ⟨k, rfl⟩ := byKind_pos hmade
  simp only [newInstruction, newGoTypeInstr, hs, Option.map_none] at hmade
  have hc : (isPtrK (W.E t).kind || (ifaceK (W.E t).kind).isSome) = true := by
    rcases hk with h | h
    · simp [(isPtr_iff _ _).mp h]
    · obtain ⟨n, hn⟩ := ifaceK_some h
      simp [hn]
  have key : ∀ m, runV W M o (n + 1) path (.marshaler m t false) .nil dst = .ok (dst ++ b! "null") := by
    intro m
    simp only [runV, execV, encodeMarshalerV, Bool.not_false, Bool.true_and, hc, if_true]
  obtain ⟨m, hi⟩ : ∃ m, newMarshalerTypeInstr W.E t ca = some (.marshaler m t false) := by
    have hp : (!isPtrK (W.E t).kind && ca) = false ∨ ((W.E t).pmeths.appendCtx = false ∧ (W.E t).pmeths.append = false ∧ (W.E t).pmeths.json = false ∧ (W.E t).pmeths.text = false) := by
      rcases hk with h | h
      · simp [(isPtr_iff _ _).mp h]
      · have := hi h
        simp only [MethSet.any, not_or, Bool.not_eq_true] at this
        exact .inr this
    unfold newMarshalerTypeInstr
    simp only
    have hm' := hm
    simp only [MethSet.any] at hm'
    rcases hp with hp | ⟨h1, h2, h3, h4⟩
    · simp only [hp, Bool.false_and, Bool.false_eq_true, if_false]
      split
      · exact ⟨_, rfl⟩
      split
      · exact ⟨_, rfl⟩
      split
      · exact ⟨_, rfl⟩
      split
      · exact ⟨_, rfl⟩
      simp_all
    · simp only [h1, h2, h3, h4, Bool.and_false, Bool.false_eq_true, if_false]
      split
      · exact ⟨_, rfl⟩
      split
      · exact ⟨_, rfl⟩
      split
      · exact ⟨_, rfl⟩
      split
      · exact ⟨_, rfl⟩
      simp_all
  rw [hi] at hmade
  cases hmade
  exact key m

/-! ## Examples -/

instance (s : MethSet) (m : MethKind) : Decidable (MethSet.Has s m) := decidable_of_iff _ (hasB_iff s m).symm
instance (E : Env) (t : TId) : Decidable (IsPtr E t) := decidable_of_iff _ (isPtr_iff E t).symm
theorem isIface_iff (E : Env) (t : TId) : (ifaceK (E t).kind).isSome = true ↔ IsIface E t := by
  constructor
  · intro h
    cases hk : (E t).kind <;> rw [hk] at h <;> first | exact ⟨_, hk⟩ | cases h
  · rintro ⟨n, hn⟩
    rw [hn]; rfl

instance (E : Env) (t : TId) : Decidable (IsIface E t) := decidable_of_iff _ (isIface_iff E t)
instance (E : Env) (t : TId) (ca : Bool) (m : MethKind) : Decidable (Available E t ca m) := by unfold Available; infer_instance
instance (E : Env) (t : TId) (ca : Bool) (m : MethKind) : Decidable (Picks E t ca m) :=
  decidable_of_iff (Available E t ca m ∧ ∀ m' ∈ [MethKind.appendCtx, .append, .json, .text], precedence m' < precedence m → ¬ Available E t ca m')
    ⟨fun h => ⟨h.1, fun m' => h.2 m' (by cases m' <;> simp)⟩, fun h => ⟨h.1, fun m' _ => h.2 m'⟩⟩

/-- Two PLouds in a slice, a Loud, a Soft and a Text. -/
def methCells : List (Addr × Cell) :=
  [(100, .slice 200 2), (200, .int (.int 5)), (208, .int (.int 6)), (300, .str (b! "loud")), (400, .str (b! "so\"ft")), (500, .str (b! "x"))]

theorem shop_valid : ValidContract shopW.jsonValid := validText_iff

/-- `MarshalJSON` with a value receiver. -/
example : ∃ i p, Stands shopW (shopH methCells) 22 false false i p (.str (b! "loud")) ∧ (shopW.E 22).special = none ∧ Picks shopW.E 22 false .json ∧
    Receives shopW.E shopW.ptrTo 22 .json (.str (b! "loud")) 22 (.str (b! "loud")) 22 ∧
    Relays defaultEncOpts 22 (fun c d => univM shopMeth [] .json c 22 (.str (b! "loud")) d) [] .json (run shopW (shopH methCells) defaultEncOpts 3 [] i p []) := by
  obtain ⟨p, S⟩ : ∃ p, Stands shopW (shopH methCells) 22 false false (.marshaler .json 22 false) p (.str (b! "loud")) :=
    shop_stands (w := 300) 6 (by decide +kernel) (by decide +kernel)
  have hp : Picks shopW.E 22 false .json := by decide +kernel
  have hr : Receives shopW.E shopW.ptrTo 22 .json (.str (b! "loud")) 22 (.str (b! "loud")) 22 :=
    .own (by decide +kernel) (by decide +kernel) (fun _ => by simp)
  exact ⟨_, p, S, rfl, hp, hr, C26_C46_relay_partial (shop_ready methCells) shop_valid S rfl hp hr 2 [] []⟩

/-- `MarshalJSON` with a pointer receiver on an element of a slice: called on its address. -/
example : ∃ i, Stands shopW (shopH methCells) 44 true false i (.heap 200) (.struct [.int (.int 5)]) ∧ (shopW.E 44).special = none ∧
    Picks shopW.E 44 true .json ∧ ¬ Available shopW.E 44 false .json ∧
    Receives shopW.E shopW.ptrTo 44 .json (.struct [.int (.int 5)]) 89 (.ptr (.struct [.int (.int 5)])) 89 := by
  have h1 : ¬ MethSet.Has (shopW.E 44).meths .json := by decide +kernel
  have h2 : MethSet.Has (shopW.E 44).pmeths .json := by decide +kernel
  exact ⟨.marshaler .json 44 true, ⟨⟨10, by decide +kernel⟩, shop_at 6 (by decide +kernel), fun _ => .inr ⟨200, by decide, rfl⟩⟩, rfl, by decide +kernel,
    by decide +kernel, Receives.addr (ptrTo := shopW.ptrTo) h1 h2⟩

/-- All four methods: the one with a context goes first; a type with only `MarshalText`. -/
example : Picks shopW.E 54 false .appendCtx ∧ Available shopW.E 54 false .text ∧ Picks shopW.E 24 false .text := by decide +kernel

/-- Nothing in a `Full` is a Text: other methods of that type make no difference. -/
example (meth' : MethKind → Option Ctx → TId → Option Bytes → Bytes → MethRes)
    (h : ∀ m c (t : Nat) s d, t ≠ 54 → t ≠ 109 → meth' m c t s d = shopMeth m c t s d) :
    appendOpts shopW (shopH shopCells) 9 [] (some (42, 100)) [] = appendOpts shopW (univHeap shopDefs meth' shopCells) 9 [] (some (42, 100)) [] := by
  refine C26_calls (shop_ready shopCells) (univ_ready shop_ok meth' shopCells) rfl (v := fullV) (shop_holds 6 (by decide +kernel)) ?_ 9 [] []
  intro t' v' hw hs m rt x u hr path c d
  have hp := allParts_within (E := shopW.E) (P := fun t v => t != 54 && t != 109 && match v with | .iface d _ => d != 54 && d != 109 | _ => true) (n := 6)
    (by decide +kernel) hw
  simp only [Bool.and_eq_true, bne_iff_ne, ne_eq] at hp
  refine (h m c rt (strOf x) d ?_ ?_).symm
  · cases hr with
    | own => exact hp.1.1
    | dyn => have := hp.2; simp at this; exact this.1
    | addr => exact (fun k : Nat => (by omega : 2 * k + 1 ≠ 54)) t'
  · cases hr with
    | own => exact hp.1.2
    | dyn => have := hp.2; simp at this; exact this.2
    | addr => exact (fun (k : Nat) (hk : k ≠ 54) => (by omega : 2 * k + 1 ≠ 109)) t' hp.1.1

/-- A nil pointer with a method. -/
example : ∃ i p, Stands shopW (shopH methCells) 45 true false i p .nil ∧ (shopW.E 45).special = none ∧ IsPtr shopW.E 45 ∧ MethSet.any (shopW.E 45).meths := by
  obtain ⟨p, S⟩ : ∃ p, Stands shopW (shopH methCells) 45 true false (.marshaler .json 45 false) p .nil :=
    shop_stands (w := 0) 6 (by decide +kernel) (by decide +kernel)
  exact ⟨_, p, S, rfl, by decide +kernel, by simp [MethSet.any]; decide +kernel⟩

end Jettison.Props
