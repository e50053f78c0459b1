import Verif.Proofs.Ends2
import Verif.Props.ConcEx

/-!
# Calls end (C33)

`C33_self_slice_wrong` and `C33_cycle_wrong` (Props/Wrong) show types and data on which
a call does not end. These theorems are about all others.
-/

namespace Jettison.Props
open Jettison Jettison.Spec Jettison.Model Jettison.Proofs

variable {W : World} {S : List TId} {g n : Nat}

/-- C33: instructions are created for every type of a finite set of types, recursive ones
included, and the encoded fields of its structs are found, within a recursion depth
bounded by the number of types. Missing for the full statement: a type made of itself
without a struct in between, as `type T []T`, on which creation does not end. -/
theorem C33_types_partial (hU : TablesOk W.U.isLetter W.U.isDigit) (hsort : SortOk W.sort) (hS : FiniteTypes W.E S) (hf : S.length + 2 ≤ W.tfuel)
    {t : TId} (ht : t ∈ S) :
    (∀ ca q, ∃ i, newInstruction W.E W.tfuel t ca q = some i) ∧ (∃ i, instrFor W.E W.tfuel t = some i) ∧
    (IsStruct W.E t → ∀ ca, ∃ l, structFieldsInstr W.E W.U W.grow W.sort W.tfuel t ca = some l) := by
  have fit := finite_fit hU hsort hS hf
  refine ⟨fun ca q => ?_, ?_, fun hs ca => ?_⟩
  · obtain ⟨i, h, -⟩ := newInstruction_in fit.parts W.tfuel t ca q ht (fit.bound t ht)
    exact ⟨i, h⟩
  · obtain ⟨i, h, -⟩ := instrFor_in fit ht
    exact ⟨i, h⟩
  · obtain ⟨l, h, -⟩ := structFields_in fit ca ht hs
    exact ⟨l, h⟩

/-- The data and the types of a call are finite, and the bounds of the model large enough
for them: `W.tfuel` for the nesting of types, `g` for the nesting of creating struct
instructions and `n` for the nesting of encoding. -/
structure FiniteCall (W : World) (g n : Nat) (c : Call) (S : List TId) (M : MethV) : Prop where
  types : FiniteTypes W.E S
  tfuel : S.length + 2 ≤ W.tfuel
  room : 2 * S.length < g
  ready : Ready W c.heap M
  heap : HeapIn S c.heap.mem
  value : ∀ x, c.value = some x → x.1 ∈ S ∧ ∃ v, ReprE W.E c.heap.mem (some x) (.iface x.1 v) ∧ (depthV v + 1) * (3 * W.tfuel + 2) ≤ n

theorem appendJSON_ends {c : Call} {M : MethV} (h : FiniteCall W g n c S M) {x : TId × Addr} (hx : c.value = some x) (o : EncOpts) (path : Path) (dst : Bytes) :
    appendJSON (c.world W) (run (c.world W) c.heap o n) path (some x) dst ≠ .nofuel := by
  obtain ⟨hS, v, hr, hn⟩ := h.value x hx
  have R : Ready (c.world W) c.heap M := ready_order h.ready c.order
  have hr' : ReprE (c.world W).E c.heap.mem (some x) (.iface x.1 v) := hr
  rw [appendJSON_eq (run_agrees R n).2 hr']
  have fit : Fit (c.world W) S (insideRank W.E S) := (finite_fit h.ready.tab h.ready.sort h.types h.tfuel).world c
  have hv : ValIn S (.iface x.1 v) := reprE_in h.heap (fun t w e => by cases e; exact hS) hr
  refine appendJSONV_ends fit hv fun t y e j hj1 hj2 hy p d => ?_
  cases e
  refine runV_ends fit M n p j v d hj2 hy hj1 ?_
  rw [Nat.add_mul] at hn
  have : (c.world W).tfuel = W.tfuel := rfl
  rw [this] at hj1
  simp only [cost, this]
  omega

/-- C33: a call with finite types and data ends, whatever the options, and the result does
not depend on how large the bound on the nesting is. -/
theorem C33_call_partial {c : Call} {M : MethV} (h : FiniteCall W g n c S M) :
    c.alone W n ≠ .nofuel ∧ ∀ m, n ≤ m → c.alone W m = c.alone W n := by
  have mono : ∀ {x : TId × Addr}, c.value = some x → ∀ o path dst m, n ≤ m → appendJSON (c.world W) (run (c.world W) c.heap o m) path (some x) dst =
      appendJSON (c.world W) (run (c.world W) c.heap o n) path (some x) dst := by
    intro x hx o path dst m hm
    have h1 := appendJSON_ends h hx o path dst
    simp only [appendJSON] at h1 ⊢
    cases hi : instrFor (c.world W).E (c.world W).tfuel x.1 with
    | none => rfl
    | some i =>
      rw [hi] at h1
      exact run_mono hm h1
  unfold Call.alone marshalOpts appendOpts marshalJSON appendTop
  cases hx : c.value with
  | none => cases c.dst <;> exact ⟨by simp, fun _ _ => rfl⟩
  | some x =>
    cases hp : prepare c.opts with
    | error e => cases c.dst <;> exact ⟨by simp, fun _ _ => rfl⟩
    | ok o =>
      cases c.dst with
      | none =>
        have h1 := appendJSON_ends h hx o [] []
        refine ⟨?_, fun m hm => by simp only [mono hx o [] [] m hm]⟩
        simp only
        generalize appendJSON _ _ _ _ _ = r at h1
        cases r <;> first | exact absurd rfl h1 | simp [marshalRet]
      | some dst =>
        have h1 := appendJSON_ends h hx o [] dst
        refine ⟨?_, fun m hm => by simp only [mono hx o [] dst m hm]⟩
        simp only
        generalize appendJSON _ _ _ _ _ = r at h1
        cases r <;> first | exact absurd rfl h1 | simp [appendRet]

theorem finite_fits {c : Call} {M : MethV} (h : FiniteCall W g n c S M) : CallFits W S (insideRank W.E S) g c where
  fit := finite_fit h.ready.tab h.ready.sort h.types h.tfuel
  dyn := by
    have inS : ∀ x, DynIn S x → InS S x := by
      intro x hx
      cases x with
      | none => trivial
      | some x => exact hx x.1 x.2 rfl
    refine ⟨fun p v hv => ?_, fun p es hes e he => ?_, h.room⟩
    · simp only [readEface] at hv
      split at hv
      · next ha => cases hv; exact inS _ (h.heap.eface _ _ ha)
      · cases hv; trivial
      · cases hv
    · simp only [readSyncMap] at hes
      split at hes
      · next ha => cases hes; exact ⟨inS _ (h.heap.smap _ _ ha e he).1, inS _ (h.heap.smap _ _ ha e he).2⟩
      · cases hes
  top t w hv := (h.value _ hv).1

/-- C33: the same with caches, pools and other calls: whatever the others do and have done,
a call with finite types and data, whose methods make only such calls, never overflows the
stack, not even while it creates instructions others also create. -/
theorem C33_concurrent_partial {C : Conf} (hl : FormatContract W.fmt) (hr : Reached W g n C) (hh : AllHonest C) {T : Thread} (hT : T ∈ C.thr)
    (hf : ∀ c ∈ T.call :: T.inner, ∃ S M, FiniteCall W g n c S M) : ¬ Crashed T := by
  obtain ⟨K, hs, ws, m⟩ := reached_inv (contract_long hl) hr hh
  obtain ⟨i, hi, rfl⟩ := List.getElem_of_mem hT
  have hm := m.meets i _ (List.getElem?_eq_getElem hi)
  intro hc
  unfold Crashed at hc
  rw [hc] at hm
  obtain ⟨c, hcm, h⟩ := hm
  obtain ⟨S, M, hf⟩ := hf c hcm
  rcases h with h | h
  · exact h ⟨S, _, finite_fits hf⟩
  · exact (C33_call_partial hf).1 h

/-- C32, C33: under a fair scheduler every one of any calls with finite types and data
returns, and returns what it returns alone. -/
theorem C33_fair_partial {e : Nat → Conf} (hl : FormatContract W.fmt) (hf : FairRun W g n e) (hfin : ∀ k, ∀ T ∈ (e k).thr, ∀ c ∈ T.call :: T.inner, ∃ S M, FiniteCall W g n c S M)
    {k i : Nat} {T : Thread} (hi : (e k).thr[i]? = some T) :
    ∃ m T' out, k ≤ m ∧ (e m).thr[i]? = some T' ∧ T'.call = T.call ∧ Returned T' out ∧ out.view (e m).sh = some (T.call.alone W n) ∧ T.call.alone W n ≠ .nofuel := by
  have al : Alive e := fun k T hT hc => C33_concurrent_partial hl (hf.reached k) (hf.honest k) hT (hfin k T hT) hc
  obtain ⟨m, T', out, h1, h2, h3, h4, h5⟩ := C32_fair hl hf al hi
  obtain ⟨S, M, h⟩ := hfin k T (List.mem_of_getElem? hi) _ List.mem_cons_self
  exact ⟨m, T', out, h1, h2, h3, h4, h5, (C33_call_partial h).1⟩

/-! ## Two goroutines and a recursive type -/

/-- The two nodes of `nodeCells`, and an interface that holds the first. -/
def ringCells : List (Addr × Cell) :=
  [(500, .int (.int 1)), (508, .word 520), (520, .int (.int 2)), (528, .word 0), (540, .eface (some (64, 500)))]

/-- `*interface{}`, `interface{}`, `Node`, `*Node`, `int`. -/
def ringTypes : List TId := [21, 10, 64, 129, 0]

theorem ring_part {u t : TId} (ht : t ∈ ringTypes) (h : PartOf shopW.E u t) : (t = 21 ∧ u = 10) ∨ (t = 129 ∧ u = 64) := by
  have k1 : (shopW.E 21).kind = .ptr 10 := by decide +kernel
  have k2 : (shopW.E 10).kind = .iface 0 := by decide +kernel
  have k3 : ∃ fs, (shopW.E 64).kind = .struct fs := ⟨[fld (b! "N") 0 0, fld (b! "Next") 129 8], by decide +kernel⟩
  have k4 : (shopW.E 129).kind = .ptr 64 := by decide +kernel
  have k5 : (shopW.E 0).kind = .int .int := by decide +kernel
  obtain ⟨fs, k3⟩ := k3
  simp only [ringTypes, List.mem_cons, List.not_mem_nil, or_false] at ht
  rcases ht with rfl | rfl | rfl | rfl | rfl <;> cases h <;> rename_i h <;> simp_all

theorem ring_inside {u t : TId} (ht : t ∈ ringTypes) (h : Inside shopW.E u t) : (t = 21 ∧ u = 10) ∨ (t = 129 ∧ u = 64) := by
  induction h with
  | one h => exact ring_part ht h
  | @step u v t h _ ih =>
    have hv := ih ht
    have hm : v ∈ ringTypes := by
      rcases hv with ⟨-, rfl⟩ | ⟨-, rfl⟩ <;> decide +kernel
    rcases ring_part hm h with ⟨rfl, rfl⟩ | ⟨rfl, rfl⟩ <;> rcases hv with ⟨h1, h2⟩ | ⟨h1, h2⟩ <;> cases h2

theorem ring_finite : FiniteTypes shopW.E ringTypes where
  parts t ht u h := by rcases ring_part ht h with ⟨rfl, rfl⟩ | ⟨rfl, rfl⟩ <;> decide +kernel
  fields t ht fs sf h hsf := by
    have k : ∀ t ∈ ringTypes, ∀ sf ∈ fieldsOfK (shopW.E t).kind, sf.typ ∈ ringTypes := by decide +kernel
    refine k t ht sf ?_
    have : (shopW.E t).kind = .struct fs := h
    rw [this]; exact hsf
  grounded t ht h := by rcases ring_inside ht h with ⟨rfl, h⟩ | ⟨rfl, h⟩ <;> cases h

theorem ring_heap : HeapIn ringTypes (shopH ringCells).mem := by
  have key : ∀ p c, (shopH ringCells).mem.at p = some c → c ∈ ringCells.map (·.2) ∨ ∃ a, c = .word a := by
    intro p c h
    cases p with
    | heap a =>
      simp only [Mem.at] at h
      split at h
      · cases h
      simp only [shopH, univHeap, Option.map_eq_some_iff] at h
      obtain ⟨x, h1, rfl⟩ := h
      exact .inl (List.mem_map.mpr ⟨x, List.mem_of_find?_eq_some h1, rfl⟩)
    | tmp a => exact .inr ⟨a, (Option.some.inj h).symm⟩
  refine ⟨fun p x h => ?_, fun p x h => ?_, fun p es h => ?_⟩
  · rcases key p _ h with h | ⟨a, h⟩
    · simp only [ringCells, List.map_cons, List.map_nil, List.mem_cons, List.not_mem_nil, or_false, Cell.eface.injEq, reduceCtorEq, false_or] at h
      subst h
      intro t w e
      cases e; decide
    · cases h
  · rcases key p _ h with h | ⟨a, h⟩
    · simp [ringCells] at h
    · cases h
  · rcases key p _ h with h | ⟨a, h⟩
    · simp [ringCells] at h
    · cases h

/-- `Marshal` of the pointer to the interface. -/
def ringA : Call := ⟨shopH ringCells, shopW.order, some (21, 540), [], none⟩
/-- `Append` of the pointer to the first node. -/
def ringB : Call := ⟨shopH ringCells, shopW.order, some (129, 500), [], some (b! "x=")⟩

theorem ringA_finite : FiniteCall shopW 20 200 ringA ringTypes (univM shopMeth) :=
  ⟨ring_finite, by decide, by decide, shop_ready _, ring_heap, fun x hx => by
    cases hx
    exact ⟨by decide, .ptr (.iface 64 (.struct [.int (.int 1), .ptr (.struct [.int (.int 2), .nil])])), shop_holds 9 (by decide +kernel), by decide +kernel⟩⟩

theorem ringB_finite : FiniteCall shopW 20 200 ringB ringTypes (univM shopMeth) :=
  ⟨ring_finite, by decide, by decide, shop_ready _, ring_heap, fun x hx => by
    cases hx
    exact ⟨by decide, .ptr (.struct [.int (.int 1), .ptr (.struct [.int (.int 2), .nil])]), shop_holds 9 (by decide +kernel), by decide +kernel⟩⟩

def ringConf : Conf :=
  ⟨{ Shared.init with arrs := [b! "x=" ++ [9]] }, [⟨ringA, ringA.marshal shopW 20 200, [], []⟩, ⟨ringB, ringB.append shopW 20 200 ⟨0, 2⟩, [], []⟩]⟩

theorem ringConf_reached : Reached shopW 20 200 ringConf :=
  .step (.step .refl (.marshal (c := ringA) rfl)) (.append (c := ringB) (dst := b! "x=") [9] rfl)

/-- After `k` choices. -/
def ring (k : Nat) : Conf := trySteps ((List.replicate 150 [0, 1]).flatten.take k) ringConf

theorem ring_end {k : Nat} (hk : 300 ≤ k) : ring k = ring 300 := by
  have : (List.replicate 150 [0, 1]).flatten.length = 300 := by decide +kernel
  unfold ring
  rw [List.take_of_length_le (by omega), List.take_of_length_le (by omega)]

theorem ring_tick (k : Nat) : Tick shopW 20 200 (ring k) (ring (k + 1)) := by
  unfold ring
  by_cases hk : k < (List.replicate 150 [0, 1]).flatten.length
  · rw [List.take_add_one, trySteps_append, List.getElem?_eq_getElem hk]
    exact tryStep_ok _ _ _ _ _
  · rw [List.take_of_length_le (by omega), List.take_of_length_le (by omega)]
    exact .pause

theorem ring_results : results (ring 300) =
    [some (.ret (some (b! "{\"N\":1,\"Next\":{\"N\":2,\"Next\":null}}")) none),
     some (.ret (some (b! "x={\"N\":1,\"Next\":{\"N\":2,\"Next\":null}}")) none)] := by
  decide +kernel

theorem ring_returned {T : Thread} (hT : T ∈ (ring 300).thr) : ∃ out, T.prog = .ret out := by
  have h : (ring 300).thr.all (fun T => match T.prog with | .ret _ => true | _ => false) = true := by decide +kernel
  have := List.all_eq_true.mp h T hT
  revert this
  cases T.prog with
  | ret out => exact fun _ => ⟨out, rfl⟩
  | crash => intro h; cases h
  | op o k => intro h; cases h

theorem ring_calls (l : List Nat) : ∀ T ∈ (trySteps l ringConf).thr, T.call = ringA ∨ T.call = ringB := by
  have : ∀ (l : List Nat) (C : Conf), (∀ T ∈ C.thr, T.call = ringA ∨ T.call = ringB) → ∀ T ∈ (trySteps l C).thr, T.call = ringA ∨ T.call = ringB := by
    intro l
    induction l with
    | nil => exact fun C h => h
    | cons i l ih =>
      intro C h
      refine ih _ ?_
      unfold tryStep
      cases hi : C.thr[i]? with
      | none => exact h
      | some T =>
        simp only
        cases hp : tryProg T C.sh with
        | none => exact h
        | some r =>
          intro T' hT'
          have hr : r.2.call = T.call := by
            unfold tryProg at hp
            split at hp
            · simp only [Option.map_eq_some_iff] at hp
              obtain ⟨q, -, rfl⟩ := hp
              rfl
            · cases hp
          rcases List.mem_or_eq_of_mem_set hT' with h1 | rfl
          · exact h T' h1
          · rw [hr]; exact h T (List.mem_of_getElem? hi)
  refine this l ringConf fun T hT => ?_
  simp only [ringConf, List.mem_cons, List.not_mem_nil, or_false] at hT
  rcases hT with rfl | rfl
  · exact .inl rfl
  · exact .inr rfl

theorem ring_plain (k : Nat) : Plain (ring k) := plain_try _ _ fun T hT => by
  simp only [ringConf, List.mem_cons, List.not_mem_nil, or_false] at hT
  rcases hT with rfl | rfl <;> rfl

theorem ring_fair : FairRun shopW 20 200 ring where
  start := ringConf_reached
  steps := ring_tick
  honest k T hT := by rw [ring_plain k T hT]; rcases ring_calls _ T hT with h | h <;> rw [h] <;> exact List.forall_mem_singleton.mpr (shop_honest ringCells)
  finite := plain_finite ring_plain
  fair i k h := by
    exfalso
    obtain ⟨C', hs⟩ := h (max k 300) (Nat.le_max_left _ _)
    rw [ring_end (Nat.le_max_right _ _)] at hs
    obtain ⟨hi, -⟩ := hs
    obtain ⟨out, ho⟩ := ring_returned (List.mem_of_getElem? hi)
    cases ho

/-- The hypotheses of `C33_fair_partial` are met. -/
theorem ring_all_finite (k : Nat) : ∀ T ∈ (ring k).thr, ∀ c ∈ T.call :: T.inner, ∃ S M, FiniteCall shopW 20 200 c S M := by
  intro T hT
  rw [ring_plain k T hT]
  refine List.forall_mem_singleton.mpr ?_
  rcases ring_calls _ T hT with h | h <;> rw [h]
  · exact ⟨_, _, ringA_finite⟩
  · exact ⟨_, _, ringB_finite⟩

end Jettison.Props
