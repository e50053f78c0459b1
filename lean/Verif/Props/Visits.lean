import Verif.Proofs.Visits
import Verif.Props.Terminate
import Verif.Props.MapsEx

/-!
# C33 for data: calls and the data they visit

`C33_call_partial` asks that all of the value be finite. Here only what the call visits matters.
-/

namespace Jettison.Props
open Jettison Jettison.Spec Jettison.Model Jettison.Proofs

variable {W : World} {S : List TId} {g n : Nat} {c : Call} {M : MethV} {o : EncOpts}

/-- Finite types, as in `FiniteCall`, and nothing about the data. -/
structure VisitCall (W : World) (g : Nat) (c : Call) (S : List TId) (M : MethV) : Prop where
  types : FiniteTypes W.E S
  tfuel : S.length + 2 ≤ W.tfuel
  room : 2 * S.length < g
  ready : Ready W c.heap M
  heap : HeapIn S c.heap.mem
  value : ∀ x, c.value = some x → x.1 ∈ S

/-- The data that the call visits under its options is cyclic. -/
def CyclicCall (W : World) (c : Call) : Prop :=
  ∃ o t w p, prepare c.opts = .ok o ∧ c.value = some (t, w) ∧ Held W.E t w p ∧ Cyclic W.U.isLetter W.U.isDigit W.E c.heap.mem o p

theorem settled_not_cyclic {H : Heap} {p : Spot} (h : Settled W H o p) : ¬ Cyclic W.U.isLetter W.U.isDigit W.E H.mem o p := by
  induction h with
  | intro p _ ih =>
    rintro ⟨f, h0, hf⟩
    exact ih (f 1) (h0 ▸ hf 0) ⟨fun k => f (k + 1), rfl, fun k => hf (k + 1)⟩

theorem not_cyclic_settled {H : Heap} {p : Spot} (h : ¬ Cyclic W.U.isLetter W.U.isDigit W.E H.mem o p) : Settled W H o p := by
  apply Classical.byContradiction
  intro hn
  have next : ∀ x : { x : Spot // ¬ Settled W H o x }, ∃ y : { x : Spot // ¬ Settled W H o x }, Visits W.U.isLetter W.U.isDigit W.E H.mem o x.1 y.1 := by
    rintro ⟨x, hx⟩
    apply Classical.byContradiction
    intro hno
    refine hx (.intro x fun y hy => ?_)
    apply Classical.byContradiction
    intro hny
    exact hno ⟨⟨y, hny⟩, hy⟩
  let f : Nat → { x : Spot // ¬ Settled W H o x } := fun n => Nat.rec ⟨p, hn⟩ (fun _ x => Classical.choose (next x)) n
  exact h ⟨fun n => (f n).1, rfl, fun n => Classical.choose_spec (next (f n))⟩

/-- A cycle of visits is endless. -/
theorem cyclic_of_loop {letter digit : Nat → Bool} {E : Env} {m : Mem} {p q : Spot} (h1 : Visits letter digit E m o p q) (h2 : Visits letter digit E m o q p) :
    Cyclic letter digit E m o p := by
  refine ⟨fun n => if n % 2 = 0 then p else q, rfl, fun n => ?_⟩
  rcases Nat.mod_two_eq_zero_or_one n with h | h
  · have : ¬ (n + 1) % 2 = 0 := by omega
    simp only [h, this, if_true, if_false]
    exact h1
  · have : (n + 1) % 2 = 0 := by omega
    simp only [h, this, if_true, Nat.one_ne_zero, if_false]
    exact h2

theorem cyclic_step {letter digit : Nat → Bool} {E : Env} {m : Mem} {p q : Spot} (h1 : Visits letter digit E m o p q) (h2 : Cyclic letter digit E m o q) :
    Cyclic letter digit E m o p := by
  obtain ⟨f, h0, hf⟩ := h2
  refine ⟨fun n => match n with | 0 => p | n + 1 => f n, rfl, fun n => ?_⟩
  cases n with
  | zero => simp only [h0]; exact h1
  | succ n => exact hf n

theorem appendJSON_settled (h : VisitCall W g c S M) {t : TId} {w : Addr} (hv : c.value = some (t, w)) {p : Spot} (hp : Held W.E t w p)
    (hs : ¬ Cyclic W.U.isLetter W.U.isDigit W.E c.heap.mem o p) : ∃ n, AppEnds (c.world W) c.heap o n (some (t, w)) := by
  have R : Ready (c.world W) c.heap M := ready_order h.ready c.order
  have fit : Fit (c.world W) S (insideRank W.E S) := (finite_fit h.ready.tab h.ready.sort h.types h.tfuel).world c
  have hS : t ∈ S := h.value _ hv
  refine held_ends R fit hS fun p' hp' hin => ?_
  have : p' = p := by
    have hp'' : Held W.E t w p' := hp'
    cases hp <;> cases hp'' <;> first | rfl | contradiction
  subst this
  exact settled_ends R fit h.heap (not_cyclic_settled (W := c.world W) hs) hin

/-- C33: a call whose types are finite ends if the data it visits has no cycle, and the result does not
depend on how large the bound on the nesting is. Data it does not visit may be cyclic. -/
theorem C33_visits_partial (h : VisitCall W g c S M) (hc : ¬ CyclicCall W c) :
    ∃ n, c.alone W n ≠ .nofuel ∧ ∀ m, n ≤ m → c.alone W m = c.alone W n := by
  unfold Call.alone marshalOpts appendOpts marshalJSON appendTop
  cases hx : c.value with
  | none => cases c.dst <;> exact ⟨0, by simp, fun _ _ => rfl⟩
  | some x =>
    obtain ⟨t, w⟩ := x
    cases ho : prepare c.opts with
    | error e => cases c.dst <;> exact ⟨0, by simp, fun _ _ => rfl⟩
    | ok o =>
      obtain ⟨p, hp⟩ := held_exists W.E t w
      obtain ⟨n, hn⟩ := appendJSON_settled h hx hp fun hcy => hc ⟨o, t, w, p, ho, hx, hp, hcy⟩
      have mono : ∀ path dst m, n ≤ m → appendJSON (c.world W) (run (c.world W) c.heap o m) path (some (t, w)) dst =
          appendJSON (c.world W) (run (c.world W) c.heap o n) path (some (t, w)) dst := by
        intro path dst m hm
        have h1 := hn path dst
        simp only [appendJSON] at h1 ⊢
        cases hi : instrFor (c.world W).E (c.world W).tfuel t with
        | none => rfl
        | some i =>
          rw [hi] at h1
          exact run_mono hm h1
      refine ⟨n, ?_⟩
      cases c.dst with
      | none =>
        have h1 := hn [] []
        refine ⟨?_, fun m hm => by simp only [mono [] [] m hm]⟩
        simp only
        generalize appendJSON _ _ _ _ _ = r at h1
        cases r <;> first | exact absurd rfl h1 | simp [marshalRet]
      | some dst =>
        have h1 := hn [] dst
        refine ⟨?_, fun m hm => by simp only [mono [] dst m hm]⟩
        simp only
        generalize appendJSON _ _ _ _ _ = r at h1
        cases r <;> first | exact absurd rfl h1 | simp [appendRet]

/-- C33: on data that is cyclic no call succeeds, however deep the nesting may go: it overflows the stack
unless something else fails before. -/
theorem C33_cyclic_wrong (R : Ready W c.heap M) (hw : OrderOk c.order) (hc : CyclicCall W c) (n : Nat) (b : Option Bytes) :
    c.alone W n ≠ .ret b none := by
  obtain ⟨o, t, w, p, ho, hv, hp, hcy⟩ := hc
  have R' : Ready (c.world W) c.heap M := ready_order R c.order
  have key : ∀ path dst out, appendJSON (c.world W) (run (c.world W) c.heap o n) path (some (t, w)) dst ≠ .ok out := by
    intro path dst out h
    refine settled_not_cyclic (W := c.world W) (o := o) ?_ hcy
    simp only [appendJSON] at h
    split at h
    · cases h
    · next i hi =>
      obtain ⟨j, hj, ⟨rfl, hl⟩ | ⟨rfl, hl⟩⟩ := instrFor_held R' hp hi
      · cases n with
        | zero => cases h
        | succ n =>
          simp only [run, exec] at h
          obtain ⟨pt, pc, pl⟩ := p
          cases hl
          exact run_ok_settled R' hw _ _ _ _ _ _ _ _ _ _ hj h
      · obtain ⟨pt, pc, pl⟩ := p
        cases hl
        exact run_ok_settled R' hw _ _ _ _ _ _ _ _ _ _ hj h
  unfold Call.alone
  rw [hv]
  cases c.dst with
  | none =>
    simp only [marshalOpts, ho, marshalJSON]
    have := key [] []
    generalize appendJSON _ _ _ _ _ = r at this
    cases r <;> simp [marshalRet] at this ⊢
  | some dst =>
    simp only [appendOpts, ho, appendTop]
    have := key [] dst
    generalize appendJSON _ _ _ _ _ = r at this
    cases r <;> simp [appendRet] at this ⊢

/-- C33: nor does one succeed that shares the caches and pools with other calls. -/
theorem C33_cyclic_concurrent_wrong {C : Conf} (hl : FormatContract W.fmt) (hr : Reached W g n C) (hh : AllHonest C) {T : Thread} (hT : T ∈ C.thr)
    (R : Ready W T.call.heap M) (hw : OrderOk T.call.order) (hc : CyclicCall W T.call) {out : Out} (hret : Returned T out) (b : Option Bytes) :
    out.view C.sh ≠ some (.ret b none) := by
  have h := C31_result hl hr hh hT hret
  rw [h]
  intro e
  exact C33_cyclic_wrong R hw hc n b (Option.some.inj e)

theorem visit_fits (h : VisitCall W g c S M) : CallFits W S (insideRank W.E S) g c where
  fit := finite_fit h.ready.tab h.ready.sort h.types h.tfuel
  dyn := by
    have inS : ∀ x, DynIn S x → InS S x := by
      intro x hx
      cases x with
      | none => trivial
      | some x => exact hx x.1 x.2 rfl
    refine ⟨fun p v hv => ?_, fun p es hes e he => ?_, h.room⟩
    · simp only [readEface] at hv
      split at hv
      · next ha => cases hv; exact inS _ (h.heap.eface _ _ ha)
      · cases hv; trivial
      · cases hv
    · simp only [readSyncMap] at hes
      split at hes
      · next ha => cases hes; exact ⟨inS _ (h.heap.smap _ _ ha e he).1, inS _ (h.heap.smap _ _ ha e he).2⟩
      · cases hes
  top t w hv := h.value _ hv

/-- One bound for any number of calls that visit no cycle. -/
theorem visits_bound : ∀ (cs : List Call), (∀ c ∈ cs, ∃ S M, VisitCall W g c S M ∧ ¬ CyclicCall W c) → ∃ n0, ∀ n, n0 ≤ n → ∀ c ∈ cs, c.alone W n ≠ .nofuel
  | [], _ => ⟨0, fun _ _ _ h => by cases h⟩
  | c :: cs, h => by
    obtain ⟨S, M, hv, hc⟩ := h c List.mem_cons_self
    obtain ⟨n1, a1, a2⟩ := C33_visits_partial hv hc
    obtain ⟨n2, b⟩ := visits_bound cs fun c hc => h c (List.mem_cons_of_mem _ hc)
    refine ⟨max n1 n2, fun n hn c' hc' => ?_⟩
    rcases List.mem_cons.mp hc' with rfl | hc'
    · rw [a2 n (Nat.le_trans (Nat.le_max_left _ _) hn)]; exact a1
    · exact b n (Nat.le_trans (Nat.le_max_right _ _) hn) c' hc'

/-- C33: calls that visit no cycle do not overflow a stack that is large enough for each of them alone, whatever
the other calls do, also when they are made in methods of each other. -/
theorem C33_visits_concurrent_partial {cs : List Call} (hl : FormatContract W.fmt) (hv : ∀ c ∈ cs, ∃ S M, VisitCall W g c S M ∧ ¬ CyclicCall W c) :
    ∃ n0, ∀ n, n0 ≤ n → ∀ {C : Conf} {T : Thread}, Reached W g n C → AllHonest C → T ∈ C.thr → (∀ c ∈ T.call :: T.inner, c ∈ cs) → ¬ Crashed T := by
  obtain ⟨n0, h1⟩ := visits_bound cs hv
  refine ⟨n0, fun n hn C T hr hh hT e hcr => ?_⟩
  obtain ⟨K, hs, ws, m⟩ := reached_inv (contract_long hl) hr hh
  obtain ⟨i, hi, rfl⟩ := List.getElem_of_mem hT
  have hm := m.meets i _ (List.getElem?_eq_getElem hi)
  unfold Crashed at hcr
  rw [hcr] at hm
  obtain ⟨c, hcm, h⟩ := hm
  have hcs := e c hcm
  obtain ⟨S, M, hv, -⟩ := hv c hcs
  rcases h with h | h
  · exact h ⟨S, _, visit_fits hv⟩
  · exact h1 n hn c hcs h

/-! ## A ring of nodes -/

/-- A node that is its own successor. -/
def selfCells : List (Addr × Cell) := [(500, .int (.int 1)), (508, .word 500)]

/-- `Marshal` of the pointer to it. -/
def selfCall (opts : List (Option Opt)) : Call := ⟨shopH selfCells, shopW.order, some (129, 500), opts, none⟩

def nodeFlds : List Fld := (structFields shopW.E shopW.U shopW.grow shopW.sort shopW.tfuel 64).getD []

theorem node_fields : structFields shopW.E shopW.U shopW.grow shopW.sort shopW.tfuel 64 = some nodeFlds := by decide +kernel

theorem node_struct : IsStruct shopW.E 64 := ⟨[fld (b! "N") 0 0, fld (b! "Next") 129 8], by unfold HasFields; decide +kernel⟩

/-- The members of a node: `N` and `Next`. -/
theorem node_members {f : MField} (h : ChosenField shopW.U.isLetter shopW.U.isDigit shopW.E 64 f) :
    (f.name = b! "N" ∧ f.decl.typ = 0) ∨ f.name = b! "Next" := by
  obtain ⟨g, hg1, hg2⟩ := members_of (shop_ready selfCells).tab (shop_ready selfCells).sort ((shop_ready selfCells).apart 64) node_fields
  obtain ⟨z, hz, rfl⟩ := List.mem_map.mp ((hg1.2 f).mpr h)
  obtain ⟨hb, u, i, hp⟩ := hg2 z hz
  have k : ∀ z ∈ nodeFlds, (z.name = b! "N" ∧ typeByIndex shopW.E 64 z.index = some 0) ∨ z.name = b! "Next" := by decide +kernel
  rw [hb.name]
  rcases k z hz with ⟨k1, k2⟩ | k
  · refine .inl ⟨k1, ?_⟩
    have := promoted_type node_struct hp
    rw [k2] at this
    exact (Option.some.inj this).symm
  · exact .inr k

theorem node_next {H : Heap} {a : Addr} : Visits shopW.U.isLetter shopW.U.isDigit shopW.E H.mem defaultEncOpts
    ⟨64, true, .heap a⟩ ⟨129, true, .heap (a + 8)⟩ := by
  obtain ⟨g, hg1, hg2⟩ := members_of (shop_ready selfCells).tab (shop_ready selfCells).sort ((shop_ready selfCells).apart 64) node_fields
  have k : ∃ z ∈ nodeFlds, z.name = b! "Next" ∧ typeByIndex shopW.E 64 z.index = some 129 ∧ z.embedSeq = [⟨8, false⟩] := by decide +kernel
  obtain ⟨z, hz, k1, k2, k3⟩ := k
  obtain ⟨hb, u, i, hp⟩ := hg2 z hz
  have ht := promoted_type node_struct hp
  rw [k2] at ht
  have ht := Option.some.inj ht
  have := Visits.member (m := H.mem) (o := defaultEncOpts) (l := .heap a) (l' := .heap (a + 8)) (f := g z) (ca := true) (byKind_of (by decide +kernel)) node_struct
    ((hg1.2 _).mp (List.mem_map_of_mem hz)) (by rw [hb.path, hb.name]; exact hp) (by rintro (⟨d, h, _⟩ | ⟨d, h, _⟩) <;> cases h)
    (by rw [k3]; exact .inside .nil)
  rw [← ht] at this
  exact this

/-- Without options the ring is visited again and again: no call succeeds. -/
theorem self_cyclic : CyclicCall shopW (selfCall []) := by
  refine ⟨defaultEncOpts, 129, 500, ⟨129, true, .tmp 500⟩, rfl, rfl, .direct (.ptr (by decide +kernel : (shopW.E 129).kind = .ptr 64)), ?_⟩
  have hk : (shopW.E 129).kind = .ptr 64 := by decide +kernel
  have hb : ByKind shopW.E 129 true := byKind_of (by decide +kernel)
  exact cyclic_step (.ptr hb hk rfl (by decide)) (cyclic_of_loop node_next (.ptr hb hk rfl (by decide)))

example (n : Nat) (b : Option Bytes) : (selfCall []).alone shopW n ≠ .ret b none :=
  C33_cyclic_wrong (shop_ready _) shop_order self_cyclic n b

/-- A call of it has been started; if it ever returns, it is with an error. -/
example : ∃ C T, Reached shopW 20 200 C ∧ T ∈ C.thr ∧ CyclicCall shopW T.call ∧ ∀ out, Returned T out → ∀ b, out.view C.sh ≠ some (.ret b none) := by
  have hr : Reached shopW 20 200 ⟨.init, [⟨selfCall [], (selfCall []).marshal shopW 20 200, [], []⟩]⟩ := .step .refl (.marshal (c := selfCall []) rfl)
  refine ⟨_, _, hr, List.mem_singleton.mpr rfl, self_cyclic, fun out h b => C33_cyclic_concurrent_wrong toyFmt_contract hr ?_ (List.mem_singleton.mpr rfl)
    (shop_ready selfCells) shop_order self_cyclic h b⟩
  intro T hT
  rw [List.mem_singleton.mp hT]
  exact List.forall_mem_singleton.mpr (shop_honest selfCells)

/-- With `DenyList([]string{"Next"})` the ring is not visited. -/
def denyNext : List (Option Opt) := [some (.denyList [b! "Next"])]

theorem deny_not_cyclic : ¬ CyclicCall shopW (selfCall denyNext) := by
  rintro ⟨o, t, w, p, ho, hv, hp, hcy⟩
  cases hv
  have ho : o = { defaultEncOpts with denyList := some [b! "Next"] } := (Except.ok.inj ho).symm
  have R := shop_ready selfCells
  have hk : (shopW.E 129).kind = .ptr 64 := by decide +kernel
  have leaf : ∀ ca l, Settled shopW (shopH selfCells) o ⟨0, ca, l⟩ := fun ca l => plain_leaf R.types (by decide +kernel)
  have node : ∀ ca l, Settled shopW (shopH selfCells) o ⟨64, ca, l⟩ := by
    intro ca l
    obtain ⟨fs, hfs⟩ := node_struct
    simp only [HasFields] at hfs
    refine .intro _ fun y hy => ?_
    cases hy with
    | ptr _ h | slice _ h | array _ h | key _ h | value _ h | iface _ h => rw [hfs] at h; cases h
    | syncKey h | syncValue h => exact absurd h (by decide +kernel)
    | member _ _ hc _ hh _ =>
      rcases node_members hc with ⟨-, h⟩ | h
      · rw [h]; exact leaf _ _
      · exact absurd (.inl ⟨_, by rw [ho], by rw [h]; simp⟩) hh
  have top : ∀ ca l, Settled shopW (shopH selfCells) o ⟨129, ca, l⟩ := by
    intro ca l
    refine .intro _ fun y hy => ?_
    cases hy with
    | ptr _ h => rw [hk] at h; cases h; exact node _ _
    | slice _ h | array _ h | key _ h | value _ h | iface _ h => rw [hk] at h; cases h
    | syncKey h | syncValue h => exact absurd h (by decide +kernel)
    | member _ h => obtain ⟨fs, h⟩ := h; simp only [HasFields, hk] at h; cases h
  refine settled_not_cyclic (W := shopW) ?_ hcy
  cases hp <;> exact top _ _

theorem self_heap (h : ∀ c ∈ selfCells.map (·.2), ∀ x es, c ≠ .eface x ∧ c ≠ .iface x ∧ c ≠ .smap es) : HeapIn ringTypes (shopH selfCells).mem := by
  have key : ∀ p c, (shopH selfCells).mem.at p = some c → c ∈ selfCells.map (·.2) ∨ ∃ a, c = .word a := by
    intro p c h
    cases p with
    | heap a =>
      simp only [Mem.at] at h
      split at h
      · cases h
      simp only [shopH, univHeap, Option.map_eq_some_iff] at h
      obtain ⟨x, h1, rfl⟩ := h
      exact .inl (List.mem_map.mpr ⟨x, List.mem_of_find?_eq_some h1, rfl⟩)
    | tmp a => exact .inr ⟨a, (Option.some.inj h).symm⟩
  refine ⟨fun p x hx => ?_, fun p x hx => ?_, fun p es hx => ?_⟩
  · rcases key p _ hx with k | ⟨a, k⟩
    · exact absurd rfl (h _ k x []).1
    · cases k
  · rcases key p _ hx with k | ⟨a, k⟩
    · exact absurd rfl (h _ k x []).2.1
    · cases k
  · rcases key p _ hx with k | ⟨a, k⟩
    · exact absurd rfl (h _ k none es).2.2
    · cases k

/-- The data is cyclic and denotes no value, but the call with the option ends. -/
theorem self_visit (opts : List (Option Opt)) : VisitCall shopW 20 (selfCall opts) ringTypes (univM shopMeth) :=
  ⟨ring_finite, by decide, by decide, shop_ready _, self_heap (by
    intro c hc x es
    simp only [selfCells, List.map_cons, List.map_nil, List.mem_cons, List.not_mem_nil, or_false] at hc
    rcases hc with rfl | rfl <;> simp), fun x hx => by cases hx; decide⟩

example : ∃ n, (selfCall denyNext).alone shopW n ≠ .nofuel ∧ ∀ m, n ≤ m → (selfCall denyNext).alone shopW m = (selfCall denyNext).alone shopW n :=
  C33_visits_partial (self_visit _) deny_not_cyclic

example : (selfCall denyNext).alone shopW 5 = .ret (some (b! "{\"N\":1}")) none := by decide +kernel

example : ∃ n0, ∀ n, n0 ≤ n → ∀ {C : Conf} {T : Thread}, Reached shopW 20 n C → AllHonest C → T ∈ C.thr → T.call = selfCall denyNext → T.inner = [] → ¬ Crashed T := by
  obtain ⟨n0, h⟩ := C33_visits_concurrent_partial (cs := [selfCall denyNext]) toyFmt_contract (List.forall_mem_singleton.mpr ⟨_, _, self_visit _, deny_not_cyclic⟩)
  exact ⟨n0, fun n hn C T hr hh hT hc hi => h n hn hr hh hT (by rw [hc, hi]; exact fun c h => h)⟩

end Jettison.Props
