import Verif.Proofs.Shown
import Verif.Props.Visits
import Verif.Props.ConcEx

/-!
# The result depends on nothing else (C59)

Two calls with the same options whose values differ only in what is not encoded have
the same result: the same bytes, the same error, or both panic. Where in memory the
values are does not matter either.
-/

namespace Jettison.Props
open Jettison Jettison.Spec Jettison.Model Jettison.Proofs

variable {W : World} {H H' : Heap} {M : MethV} {o : EncOpts} {t : TId} {ca : Bool} {v v' : Val} {w w' : Addr}

theorem appendJSON_shows (R : Ready W H M) (R' : Ready W H' M) (h : ReprE W.E H.mem (some (t, w)) (.iface t v))
    (h' : ReprE W.E H'.mem (some (t, w')) (.iface t v')) (hs : Shows W o t (isPtrK (W.E t).kind) v v') (n : Nat) (path : Path) (dst : Bytes) :
    appendJSON W (run W H o n) path (some (t, w)) dst = appendJSON W (run W H' o n) path (some (t, w')) dst := by
  rw [appendJSON_eq (run_agrees R n).2 h, appendJSON_eq (run_agrees R' n).2 h']
  rcases reprE_cases h with h0 | ⟨_, _, h0, hp⟩
  · cases h0
  · cases h0
    rcases reprE_cases h' with h0 | ⟨_, _, h0, hp'⟩
    · cases h0
    · cases h0
      exact appendJSONV_shows (fun m _ => runV_shows R R' m) hp hp' hs path dst

/-- C59: values that show the same under the options give the same result, whatever memory holds them. -/
theorem C59_result (R : Ready W H M) (R' : Ready W H' M) (h : ReprE W.E H.mem (some (t, w)) (.iface t v))
    (h' : ReprE W.E H'.mem (some (t, w')) (.iface t v')) (opts : List (Option Opt))
    (hs : ∀ o, prepare opts = .ok o → Shows W o t (isPtrK (W.E t).kind) v v') (n : Nat) (dst : Bytes) :
    marshalOpts W H n (some (t, w)) opts = marshalOpts W H' n (some (t, w')) opts ∧
    appendOpts W H n dst (some (t, w)) opts = appendOpts W H' n dst (some (t, w')) opts := by
  simp only [marshalOpts, appendOpts]
  cases ho : prepare opts with
  | error e => exact ⟨rfl, rfl⟩
  | ok o => simp only [marshalJSON, appendTop, appendJSON_shows R R' h h' (hs o ho), and_self]

theorem shows_order {ord : Path → Nat → List Nat} (h : Shows W o t ca v v') : Shows { W with order := ord } o t ca v v' := by
  induction h with
  | refl => exact .refl
  | ptr hb hk _ ih => exact .ptr hb hk ih
  | slice hb hk hl _ ih => exact .slice hb hk hl ih
  | array hb hk hl _ ih => exact .array hb hk hl ih
  | map hb hk hl hK _ ih => exact .map hb hk hl hK ih
  | iface hb hk _ ih => exact .iface hb hk ih
  | smap hs hl hK hE _ ih => exact .smap hs hl hK hE ih
  | struct hb hs hl _ ih => exact .struct hb hs hl ih

/-- C59: the same for two calls that share the caches and pools with any others, in one process or in two. -/
theorem C59_concurrent {g n : Nat} {C C' : Conf} (hl : FormatContract W.fmt) (hr : Reached W g n C) (hr' : Reached W g n C') (hh : AllHonest C)
    (hh' : AllHonest C') {T T' : Thread} (hT : T ∈ C.thr) (hT' : T' ∈ C'.thr) {out out' : Out} (ho : Returned T out) (ho' : Returned T' out')
    (R : Ready W T.call.heap M) (R' : Ready W T'.call.heap M) (hv : T.call.value = some (t, w)) (hv' : T'.call.value = some (t, w'))
    (h : ReprE W.E T.call.heap.mem (some (t, w)) (.iface t v)) (h' : ReprE W.E T'.call.heap.mem (some (t, w')) (.iface t v'))
    (hopts : T'.call.opts = T.call.opts) (hdst : T'.call.dst = T.call.dst) (hord : T'.call.order = T.call.order)
    (hs : ∀ o, prepare T.call.opts = .ok o → Shows W o t (isPtrK (W.E t).kind) v v') : out.view C.sh = out'.view C'.sh := by
  rw [C31_result hl hr hh hT ho, C31_result hl hr' hh' hT' ho']
  have k := fun dst => C59_result (W := T.call.world W) (ready_order R T.call.order) (ready_order R' T.call.order) h h' T.call.opts
    (fun o e => shows_order (hs o e)) n dst
  have hw : T'.call.world W = T.call.world W := by simp only [Call.world, hord]
  simp only [Call.alone, hv, hv', hopts, hdst, hw]
  cases T.call.dst with
  | none => rw [(k []).1]
  | some dst => simp only [(k dst).2]

/-- Structs that agree in their members, but for the hidden ones, show the same: other fields do not matter. -/
theorem shows_members (hb : ByKind W.E t ca) (hs : IsStruct W.E t)
    (h : ∀ m, ChosenField W.U.isLetter W.U.isDigit W.E t m → ¬ Hidden o.allowList o.denyList m.name →
      (BehindNil v m.path ↔ BehindNil v' m.path) ∧ ∀ x, FieldAt v m.path x ↔ FieldAt v' m.path x) : Shows W o t ca v v' := by
  refine .struct hb hs (fun m hm => ?_) (fun m x x' hm hno hx hx' => ?_)
  · by_cases hh : Hidden o.allowList o.denyList m.name
    · exact ⟨fun _ => .inl hh, fun _ => .inl hh⟩
    · obtain ⟨h1, h2⟩ := h m hm hh
      simp only [LeftOut, h1, h2]
  · have := ((h m hm fun hh => hno (.inl hh)).2 x).mp hx
    rw [fieldAt_unique this hx']
    exact .refl

/-- C59: the values of hidden members and of fields that are no members have no influence on the result of
encoding a struct. -/
theorem C59_hidden (R : Ready W H M) (R' : Ready W H' M) (h : ReprE W.E H.mem (some (t, w)) (.iface t v))
    (h' : ReprE W.E H'.mem (some (t, w')) (.iface t v')) (hb : ByKind W.E t (isPtrK (W.E t).kind)) (hs : IsStruct W.E t) (opts : List (Option Opt))
    (hm : ∀ m, ChosenField W.U.isLetter W.U.isDigit W.E t m →
      ¬ Hidden (lastSetting settingAllow none opts) (lastSetting settingDeny none opts) m.name →
      (BehindNil v m.path ↔ BehindNil v' m.path) ∧ ∀ x, FieldAt v m.path x ↔ FieldAt v' m.path x) (n : Nat) (dst : Bytes) :
    marshalOpts W H n (some (t, w)) opts = marshalOpts W H' n (some (t, w')) opts ∧
    appendOpts W H n dst (some (t, w)) opts = appendOpts W H' n dst (some (t, w')) opts := by
  refine C59_result R R' h h' opts (fun o ho => shows_members hb hs fun m hc hh => hm m hc ?_) n dst
  obtain ⟨-, -, -, -, h5, h6⟩ := C29_effect opts
  rw [← h5, ← h6, ← (C29_rejected_iff opts).2 o ho]
  exact hh

/-! ## Examples -/

/-- Two nodes, numbered 1 and 2. -/
def pairCells : List (Addr × Cell) := [(500, .int (.int 1)), (508, .word 600), (600, .int (.int 2)), (608, .word 0)]

/-- Two nodes elsewhere, numbered 8 and 9. -/
def pairCells' : List (Addr × Cell) := [(700, .int (.int 8)), (708, .word 900), (900, .int (.int 9)), (908, .word 0)]

def pairV (a b : Int64) : Val := .ptr (.struct [.int (.int a), .ptr (.struct [.int (.int b), .nil])])

/-- `DenyList([]string{"N"})`: the numbers are not shown. -/
def denyN : List (Option Opt) := [some (.denyList [b! "N"])]

theorem node_path {f : MField} (h : ChosenField shopW.U.isLetter shopW.U.isDigit shopW.E 64 f) :
    f.name = b! "N" ∨ (f.path = [1] ∧ f.decl.typ = 129) := by
  obtain ⟨g, hg1, hg2⟩ := members_of (shop_ready selfCells).tab (shop_ready selfCells).sort ((shop_ready selfCells).apart 64) node_fields
  obtain ⟨z, hz, rfl⟩ := List.mem_map.mp ((hg1.2 f).mpr h)
  obtain ⟨hb, u, i, hp⟩ := hg2 z hz
  have k : ∀ z ∈ nodeFlds, z.name = b! "N" ∨ (z.index = [1] ∧ typeByIndex shopW.E 64 z.index = some 129) := by decide +kernel
  rw [hb.name, hb.path]
  rcases k z hz with k | ⟨k1, k2⟩
  · exact .inl k
  · refine .inr ⟨k1, ?_⟩
    have := promoted_type node_struct hp
    rw [k2] at this
    exact (Option.some.inj this).symm

/-- Nodes with successors that show the same show the same. -/
theorem node_shows {o : EncOpts} (ho : o.denyList = some [b! "N"]) {a b : Val} {x y : Val} (hxy : Shows shopW o 129 true x y)
    (hn : x = .nil ↔ y = .nil) (he : EmptyVal x ↔ EmptyVal y) : Shows shopW o 64 true (.struct [a, x]) (.struct [b, y]) := by
  have at1 : ∀ {c z u : Val}, FieldAt (.struct [c, z]) [1] u ↔ u = z := by
    intro c z u
    constructor
    · intro h; cases h with | last h => exact (Option.some.inj h).symm
    · rintro rfl; exact .last rfl
  have nb : ∀ {c z : Val}, ¬ BehindNil (.struct [c, z]) [1] := by intro c z h; cases h
  refine .struct (byKind_of (by decide +kernel)) node_struct (fun m hm => ?_) (fun m u u' hm hno hu hu' => ?_)
  · rcases node_path hm with h | ⟨h, -⟩
    · have hh : Hidden o.allowList o.denyList m.name := .inl ⟨_, ho, by rw [h]; simp⟩
      exact ⟨fun _ => .inl hh, fun _ => .inl hh⟩
    · simp only [LeftOut, h, nb, at1, false_or, exists_eq_left, hn, he]
  · rcases node_path hm with h | ⟨h, h2⟩
    · exact absurd (.inl (.inl ⟨_, ho, by rw [h]; simp⟩)) hno
    · rw [h] at hu hu'
      rw [at1.mp hu, at1.mp hu', h2]
      exact hxy

theorem pair_shows {o : EncOpts} (ho : o.denyList = some [b! "N"]) (a b a' b' : Int64) :
    Shows shopW o 129 (isPtrK (shopW.E 129).kind) (pairV a b) (pairV a' b') := by
  have hk : (shopW.E 129).kind = .ptr 64 := by decide +kernel
  have hb : ByKind shopW.E 129 true := byKind_of (by decide +kernel)
  rw [hk]
  refine .ptr hb hk (node_shows ho (.ptr hb hk (node_shows ho .refl Iff.rfl Iff.rfl)) ?_ ?_)
  · exact ⟨fun h => (by cases h), fun h => (by cases h)⟩
  · simp [EmptyVal]

/-- The numbers and the addresses do not matter … -/
example (n : Nat) (dst : Bytes) :
    marshalOpts shopW (shopH pairCells) n (some (129, 500)) denyN = marshalOpts shopW (shopH pairCells') n (some (129, 700)) denyN ∧
    appendOpts shopW (shopH pairCells) n dst (some (129, 500)) denyN = appendOpts shopW (shopH pairCells') n dst (some (129, 700)) denyN :=
  C59_result (v := pairV 1 2) (v' := pairV 8 9) (shop_ready _) (shop_ready _) (shop_holds 8 (by decide +kernel)) (shop_holds 8 (by decide +kernel)) denyN
    (fun o ho => pair_shows (by rw [← Except.ok.inj ho]; rfl) 1 2 8 9) n dst

example : marshalOpts shopW (shopH pairCells) 9 (some (129, 500)) denyN = .ret (some (b! "{\"Next\":{\"Next\":null}}")) none := by decide +kernel

/-- … which they do if they are not denied. -/
example : marshal shopW (shopH pairCells) 9 (some (129, 500)) ≠ marshal shopW (shopH pairCells') 9 (some (129, 700)) := by decide +kernel

/-- The struct itself: `C59_hidden` with two numbers. -/
example (n : Nat) (dst : Bytes) :
    marshalOpts shopW (shopH pairCells) n (some (64, 600)) denyN = marshalOpts shopW (shopH pairCells') n (some (64, 900)) denyN ∧
    appendOpts shopW (shopH pairCells) n dst (some (64, 600)) denyN = appendOpts shopW (shopH pairCells') n dst (some (64, 900)) denyN := by
  refine C59_hidden (v := .struct [.int (.int 2), .nil]) (v' := .struct [.int (.int 9), .nil]) (shop_ready _) (shop_ready _) (shop_holds 8 (by decide +kernel))
    (shop_holds 8 (by decide +kernel)) (byKind_of (by decide +kernel)) node_struct denyN (fun m hm hh => ?_) n dst
  rcases node_path hm with h | ⟨h, -⟩
  · exact absurd (.inl ⟨[b! "N"], rfl, by rw [h]; simp⟩) hh
  · rw [h]
    refine ⟨⟨fun h => (by cases h), fun h => (by cases h)⟩, fun x => ⟨fun h => ?_, fun h => ?_⟩⟩ <;>
    · cases h with
      | last h => exact .last h

/-- Two goroutines encode the two lists, taking turns. -/
def pairCall : Call := ⟨shopH pairCells, shopW.order, some (129, 500), denyN, none⟩
def pairCall' : Call := ⟨shopH pairCells', shopW.order, some (129, 700), denyN, none⟩

def pairConf : Conf := ⟨.init, [⟨pairCall, pairCall.marshal shopW 20 9, [], []⟩, ⟨pairCall', pairCall'.marshal shopW 20 9, [], []⟩]⟩

theorem pairConf_reached : Reached shopW 20 9 pairConf :=
  .step (.step .refl (.marshal (c := pairCall) rfl)) (.marshal (c := pairCall') rfl)

def pairEnd : Conf := trySteps (List.replicate 200 [0, 1]).flatten pairConf

theorem pairEnd_honest : AllHonest pairEnd := by
  refine honest_try _ _ fun T hT => ?_
  simp only [pairConf, List.mem_cons, List.not_mem_nil, or_false] at hT
  rcases hT with rfl | rfl
  · exact List.forall_mem_singleton.mpr (shop_honest pairCells)
  · exact List.forall_mem_singleton.mpr (shop_honest pairCells')

example : results pairEnd = [some (.ret (some (b! "{\"Next\":{\"Next\":null}}")) none), some (.ret (some (b! "{\"Next\":{\"Next\":null}}")) none)] := by
  decide +kernel

theorem calls_try (l : List Nat) (C : Conf) : (trySteps l C).thr.map (·.call) = C.thr.map (·.call) := by
  induction l generalizing C with
  | nil => rfl
  | cons i l ih =>
    refine (ih _).trans ?_
    unfold tryStep
    cases hi : C.thr[i]? with
    | none => rfl
    | some T =>
      simp only
      cases hp : tryProg T C.sh with
      | none => rfl
      | some r =>
        have hr : r.2.call = T.call := by
          unfold tryProg at hp
          split at hp
          · simp only [Option.map_eq_some_iff] at hp
            obtain ⟨q, -, rfl⟩ := hp
            rfl
          · cases hp
        obtain ⟨hlt, rfl⟩ := List.getElem?_eq_some_iff.mp hi
        simp only [List.map_set, hr]
        apply List.ext_getElem (by simp)
        intro j h1 h2
        simp only [List.getElem_set, List.getElem_map]
        split
        · next h => subst h; rfl
        · rfl

theorem pair_thread {i : Nat} {c : Call} (hc : (pairConf.thr.map (·.call))[i]? = some c) :
    ∃ T, T ∈ pairEnd.thr ∧ T.call = c ∧ ∃ out, Returned T out := by
  rw [← calls_try (List.replicate 200 [0, 1]).flatten, List.getElem?_map, Option.map_eq_some_iff] at hc
  obtain ⟨T, hT, h⟩ := hc
  have hm := List.mem_of_getElem? hT
  refine ⟨T, hm, h, ?_⟩
  have h : pairEnd.thr.all (fun T => match T.prog with | .ret _ => true | _ => false) = true := by decide +kernel
  have := List.all_eq_true.mp h T hm
  unfold Returned
  revert this
  cases T.prog with
  | ret out => exact fun _ => ⟨out, rfl⟩
  | crash => intro h; cases h
  | op o k => intro h; cases h

example : ∃ T T' out out', T ∈ pairEnd.thr ∧ T' ∈ pairEnd.thr ∧ T.call = pairCall ∧ T'.call = pairCall' ∧ Returned T out ∧ Returned T' out' ∧
    out.view pairEnd.sh = out'.view pairEnd.sh := by
  obtain ⟨T, hT, hc, out, ho⟩ := pair_thread (i := 0) (c := pairCall) rfl
  obtain ⟨T', hT', hc', out', ho'⟩ := pair_thread (i := 1) (c := pairCall') rfl
  have hr : Reached shopW 20 9 pairEnd := trySteps_ok _ pairConf_reached
  refine ⟨T, T', out, out', hT, hT', hc, hc', ho, ho', ?_⟩
  exact C59_concurrent (t := 129) (w := 500) (w' := 700) (v := pairV 1 2) (v' := pairV 8 9) toyFmt_contract hr hr pairEnd_honest pairEnd_honest hT hT' ho ho'
    (by rw [hc]; exact shop_ready pairCells) (by rw [hc']; exact shop_ready pairCells') (by rw [hc]; rfl) (by rw [hc']; rfl)
    (by rw [hc]; exact shop_holds 8 (by decide +kernel)) (by rw [hc']; exact shop_holds 8 (by decide +kernel)) (by rw [hc, hc']; rfl)
    (by rw [hc, hc']; rfl) (by rw [hc, hc']; rfl)
    (fun o e => pair_shows (by rw [hc] at e; rw [← Except.ok.inj e]; rfl) 1 2 8 9)

end Jettison.Props
