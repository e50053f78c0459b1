import Verif.Proofs.LiveSafe
import Verif.Proofs.LiveKept
import Verif.Props.Shop
import Verif.Props.MapsEx

/-!
# Data that methods change while it is encoded

The methods of the user's types are Go code and may change the data that is being encoded, for
example the elements of the slice, the entries of the map or the target of the pointer that is
encoded next. `marshalL` and `appendL` run the encoder against such methods.

* C67: whatever the methods change, as long as variables hold data of their types, the encoder reads
  nothing as something it is not. The data may have cycles.
* C68: when the methods leave the encoded value alone, the result is the one they give on memory that
  does not change, whatever else they change.
-/

namespace Jettison.Props
open Jettison Jettison.Spec Jettison.Model Jettison.Proofs

variable {σ : Type} {W : World} {P : Around σ} {T : σ → Places} {H : Heap} {M : MethV}

theorem marshalRet_bad {r : Res} (h : r ≠ .bad) : marshalRet r ≠ .bad := by
  cases r <;> simp_all [marshalRet]

theorem appendRet_bad {r : Res} (h : r ≠ .bad) : appendRet r ≠ .bad := by
  cases r <;> simp_all [appendRet]

/-- C67. The encoder makes no wrong access, whatever the methods do with the data, and leaves all
variables in place. -/
theorem C67_no_wrong_access (R : Grounds W) (C : Careful W.E P T) (lim n : Nat) (x : Eface) (opts : List (Option Opt)) (s : σ)
    (hx : (T s).Held W.E x) :
    (marshalL W P lim n x opts s).1 ≠ .bad ∧ (T s).Le (T (marshalL W P lim n x opts s).2) ∧
    ∀ dst, (appendL W P lim n dst x opts s).1 ≠ .bad ∧ (T s).Le (T (appendL W P lim n dst x opts s).2) := by
  cases x with
  | none => exact ⟨by simp [marshalL], by simp only [marshalL]; exact le_refl _, fun dst => ⟨by simp [appendL], by simp only [appendL]; exact le_refl _⟩⟩
  | some x =>
    simp only [marshalL, appendL]
    cases hp : prepare opts with
    | error e => exact ⟨by simp, le_refl _, fun dst => ⟨by simp, le_refl _⟩⟩
    | ok o =>
      have key := fun dst => safe_appendJSON (safe_run (o := o) (lim := lim) R C n).2 hx [] dst
      exact ⟨marshalRet_bad (key []).1, (key []).2, fun dst => ⟨appendRet_bad (key dst).1, (key dst).2⟩⟩

/-- C68. The result depends on the encoded value and on what the methods answer, not on what else
they change. -/
theorem C68_frame (R : Ready W H M) (K : Kept W H M P) (hw : OrderOk W.order) {lim : Nat} (hf : Fewer lim H.mem) (n : Nat) (x : Eface) {v : Val}
    (hx : ReprE W.E H.mem x v) (opts : List (Option Opt)) (s : σ) :
    (marshalL W P lim n x opts s).1 = marshalOpts W H n x opts ∧
    ∀ dst, (appendL W P lim n dst x opts s).1 = appendOpts W H n dst x opts := by
  cases x with
  | none => exact ⟨rfl, fun dst => rfl⟩
  | some x =>
    simp only [marshalL, appendL, marshalOpts, appendOpts]
    cases hp : prepare opts with
    | error e => exact ⟨rfl, fun dst => rfl⟩
    | ok o =>
      have key := fun dst => same_appendJSON (same_run (o := o) R K hw hf n).2 hx [] dst s
      exact ⟨by simp only [key]; rfl, fun dst => by simp only [key]; rfl⟩

/-! ## Examples -/

/-- The variables and maps of a list. -/
def placesOf (vals : List (TId × Loc)) (maps : List (TId × TId × Addr)) : Places := ⟨fun t p => (t, p) ∈ vals, fun k e a => (k, e, a) ∈ maps⟩

def holdsB (E : Env) (inl : TId → Bool) (vals : List (TId × Loc)) : Eface → Bool
  | none => true
  | some (t, w) => if inl t then decide ((t, .tmp w) ∈ vals) else !directB E 10 t && decide (w ≠ 0 ∧ (t, .heap w) ∈ vals)

def laidB (E : Env) (inl : TId → Bool) (m : Mem) (vals : List (TId × Loc)) (maps : List (TId × TId × Addr)) (t : TId) (p : Loc) : Bool :=
  match (E t).kind, m.at p with
  | .bool, some (.bool _) => true
  | .int k, some (.int v) => decide (v.kind = k)
  | .float w, some (.float w' _) => decide (w = w')
  | .string, some (.str _) => true
  | .ptr e, some (.word a) => decide (a ≠ 0 → (e, .heap a) ∈ vals)
  | .map k e, some (.word a) => bareB E t && decide (a ≠ 0 → (k, e, a) ∈ maps)
  | .slice e, some (.slice d n) => if d = 0 then decide (n = 0) else (List.range n).all fun i => decide ((e, Loc.heap (d + i * (E e).size)) ∈ vals)
  | .array n e, _ => bareB E t && (List.range n).all fun i => decide ((e, p.add (i * (E e).size)) ∈ vals)
  | .struct fs, c =>
    match (E t).special, c with
    | none, _ => bareB E t && fs.all fun f => decide ((f.typ, p.add f.offset) ∈ vals)
    | some .time, some (.time _) => true
    | some .syncMap, some (.smap es) => es.all fun x => holdsB E inl vals x.1 && holdsB E inl vals x.2
    | _, _ => false
  | .iface 0, some (.eface x) => holdsB E inl vals x
  | .iface (_ + 1), some (.iface x) => (x.isNone || anyMeth (E t).meths) && holdsB E inl vals x
  | .other, _ => bareB E t
  | _, _ => false

def saneB (E : Env) (inl : TId → Bool) (m : Mem) (vals : List (TId × Loc)) (maps : List (TId × TId × Addr)) : Bool :=
  (vals.all fun x => laidB E inl m vals maps x.1 x.2) && maps.all fun x =>
    match m.at (.heap x.2.2) with
    | some (.hmap es) => es.all fun y => decide ((x.1, Loc.heap y.1) ∈ vals ∧ (x.2.1, Loc.heap y.2) ∈ vals)
    | _ => false

theorem holdsB_sound {E : Env} {inl : TId → Bool} (hi : ∀ t, inl t = true → Inlined E t) {vals : List (TId × Loc)} {maps : List (TId × TId × Addr)} {x : Eface}
    (h : holdsB E inl vals x = true) : (placesOf vals maps).Held E x := by
  cases x with
  | none => exact .nil
  | some x =>
    obtain ⟨t, w⟩ := x
    simp only [holdsB] at h
    split at h
    · next ht => exact .direct (hi t ht) (by have := of_decide_eq_true h; exact this)
    · next ht =>
      rw [Bool.and_eq_true, decide_eq_true_eq] at h
      exact .indirect (.inl ⟨fun hd => by simp [directB_complete hd 10] at h, h.2.1⟩) h.2.2

theorem laidB_sound {E : Env} {inl : TId → Bool} (hi : ∀ t, inl t = true → Inlined E t) {m : Mem} {vals : List (TId × Loc)} {maps : List (TId × TId × Addr)}
    {t : TId} {p : Loc} (h : laidB E inl m vals maps t p = true) : Laid E m (placesOf vals maps) t p := by
  unfold laidB at h
  split at h
  · next hk hm => exact .bool hk hm
  · next hk hm => exact .int (by rw [hk, ← of_decide_eq_true h]) hm
  · next hk hm => obtain rfl := of_decide_eq_true h; exact .float hk hm
  · next hk hm => exact .str hk hm
  · next hk hm => exact .ptr hk hm (by have := of_decide_eq_true h; exact this)
  · next hk hm => rw [Bool.and_eq_true] at h; exact .map hk (bareB_sound h.1) hm (by have h := h.2; have := of_decide_eq_true h; exact this)
  · next hk hm =>
    split at h
    · next h0 => subst h0; obtain rfl := of_decide_eq_true h; exact .nilSlice hk hm
    · next h0 => exact .slice hk hm h0 (fun i hi => by have := List.all_eq_true.mp h i (List.mem_range.mpr hi); have := of_decide_eq_true this; exact this)
  · next hk => rw [Bool.and_eq_true] at h; exact .array hk (bareB_sound h.1) (fun i hi => by have := List.all_eq_true.mp h.2 i (List.mem_range.mpr hi); have := of_decide_eq_true this; exact this)
  · next hk =>
    split at h
    · next hs => rw [Bool.and_eq_true] at h; exact .struct hk hs (bareB_sound h.1) (fun f hf => by have := List.all_eq_true.mp h.2 f hf; have := of_decide_eq_true this; exact this)
    · next hs hm => exact .time hs hm
    · next hs hm =>
      refine .smap hs hm (fun x hx => ?_)
      have := List.all_eq_true.mp h x hx
      rw [Bool.and_eq_true] at this
      exact ⟨holdsB_sound hi this.1, holdsB_sound hi this.2⟩
    · simp at h
  · next hk hm => exact .eface hk hm (holdsB_sound hi h)
  · next x hk hm =>
    rw [Bool.and_eq_true] at h
    refine .iface hk hm (fun hx => ?_) (holdsB_sound hi h.2)
    cases x with
    | none => exact absurd rfl hx
    | some x => exact (anyMeth_iff _).mp (by simpa using h.1)
  · next hk => exact .opaque hk (bareB_sound h)
  · simp at h

theorem saneB_sound {E : Env} {inl : TId → Bool} (hi : ∀ t, inl t = true → Inlined E t) {m : Mem} {vals : List (TId × Loc)} {maps : List (TId × TId × Addr)}
    (h : saneB E inl m vals maps = true) : Sane E m (placesOf vals maps) := by
  rw [saneB, Bool.and_eq_true] at h
  refine ⟨fun t p hp => laidB_sound hi (List.all_eq_true.mp h.1 _ hp), fun k e a ha => ?_⟩
  have := List.all_eq_true.mp h.2 _ ha
  simp only at this
  split at this
  · next es hm => exact ⟨es, hm, fun x hx => by have := List.all_eq_true.mp this x hx; have := of_decide_eq_true this; exact this⟩
  · simp at this

theorem shop_inl (t : TId) : isInlined (univE shopDefs) 10 t = true → Inlined (univE shopDefs) t := isInlined_sound 10 t

theorem shop_grounds : Grounds shopW :=
  have R := shop_ready []
  ⟨R.types, R.apart, R.nest, R.tab, R.sort⟩

/-- A `Full` whose methods change it: each call of a method is one step. `Any` is a map, at first with a
value of type `Loud` only; while the `MarshalJSON` method of that value runs, the map gets a second entry, a node.
The node is its own `Next` until the second call, and gets another number with the third. -/
def stirCells (s : Nat) : List (Addr × Cell) :=
  [(100, .word 0), (108, .slice 240 2), (132, .word 0),
   (140, .int (.uint8 1)), (141, .int (.uint8 2)), (142, .int (.uint8 3)), (148, .eface (some (60, 290))), (164, .int (.int 5)), (172, .str (b! "nil")),
   (240, .str (b! "a")), (256, .str (b! "b")), (290, .hmap ([(300, 316)] ++ if s < 3 then [] else [(332, 348)])),
   (300, .str (b! "k")), (316, .eface (some (22, 256))), (332, .str (b! "l")), (348, .eface (some (129, 500))),
   (500, .int (.int (Int64.ofNat s))), (508, .word (if s < 2 then 500 else 0))]

/-- The memory at a step; from the third step on it does not change. -/
def stirMem (s : Nat) : Mem := fun a => ((stirCells (min s 3)).find? (·.1 = a)).map (·.2)

def stirP : Around Nat where
  mem := stirMem
  meth s k ctx t w dst := (shopMeth k ctx t (univRecv shopDefs (stirMem s) t w) dst, s + 1)
  entry s _ n a := match (stirMem s).at (.heap a) with | some (.hmap es) => es[n]? | _ => none
  sentry s _ n p := match (stirMem s).at p with | some (.smap es) => es[n]? | _ => none

def stirVals : List (TId × Loc) :=
  [(42, .heap 100), (81, .heap 100), (46, .heap 108), (48, .heap 132), (18, .heap 140), (10, .heap 148), (44, .heap 164), (22, .heap 172), (0, .heap 164),
   (16, .heap 140), (16, .heap 141), (16, .heap 142), (22, .heap 240), (22, .heap 256), (60, .tmp 290), (2, .heap 300), (10, .heap 316), (2, .heap 332), (10, .heap 348),
   (129, .tmp 500), (64, .heap 500), (0, .heap 500), (129, .heap 508)]

def stirT (_ : Nat) : Places := placesOf stirVals [(2, 10, 290)]

theorem stir_careful : Careful shopW.E stirP stirT := by
  have sane : ∀ s, Sane shopW.E (stirP.mem s) (stirT s) := by
    have key : ∀ s, s ≤ 3 → Sane shopW.E (fun a => ((stirCells s).find? (·.1 = a)).map (·.2)) (stirT s) := by
      intro s hs
      have : s = 0 ∨ s = 1 ∨ s = 2 ∨ s = 3 := by omega
      rcases this with rfl | rfl | rfl | rfl <;> exact saneB_sound shop_inl (by decide +kernel)
    intro s
    exact key _ (Nat.min_le_right s 3)
  refine ⟨sane, fun s k c t w dst _ => le_refl _, ?_, ?_⟩
  · intro s path n k e a x hm hx
    obtain ⟨es, hes, hall⟩ := (sane s).map k e a hm
    have hes : (stirMem s).at (.heap a) = some (.hmap es) := hes
    simp only [stirP, hes] at hx
    exact hall x (List.mem_of_getElem? hx)
  · intro s path n t p x hv hs hx
    obtain ⟨es, hes, hall⟩ := laid_smap shop_grounds.types hs ((sane s).val t p hv)
    have hes : (stirMem s).at p = some (.smap es) := hes
    simp only [stirP, hes] at hx
    exact hall x (List.mem_of_getElem? hx)

example : (stirT 0).Held shopW.E (some (42, 100)) :=
  .indirect (.inl ⟨fun h => absurd (directB_complete h 10) (by decide +kernel), by decide⟩) (by decide +kernel : (42, Loc.heap 100) ∈ stirVals)

/-- The methods opened the ring, changed the number and added an entry of the map. -/
example : (marshalL shopW stirP 10 20 (some (42, 100)) [] 0).1 =
    .ret (some (b! "{\"L\":[[1,2],[1,2]],\"M\":null,\"A\":[1,2,3],\"Any\":{\"k\":[1,2],\"l\":{\"N\":3,\"Next\":null}},\"P\":{\"N\":5}}")) none := by decide +kernel

/-- The ring by itself is followed without end. -/
example : (marshalL shopW stirP 10 20 (some (129, 500)) [] 0).1 = .nofuel := by decide +kernel

/-- Methods that count their calls in a variable of their own, beside the data of `shopCells`. -/
def tallyP : Around Nat where
  mem s a := if a = 9000 then some (.int (.int (Int64.ofNat s))) else (shopH shopCells).mem a
  meth s k ctx t w dst := ((shopH shopCells).meth [] k ctx t w dst, s + 1)
  entry _ path n a := match (shopH shopCells).mem a with | some (.hmap es) => (shopW.visit path es)[n]? | _ => none
  sentry _ path n p := match (shopH shopCells).mem.at p with | some (.smap es) => (shopW.visit path es)[n]? | _ => none

theorem tally_kept : Kept shopW (shopH shopCells) (univM shopMeth) tallyP where
  mem s a c h := by
    have : a ≠ 9000 := by
      intro ha
      rw [ha, show (shopH shopCells).mem 9000 = none by decide +kernel] at h
      cases h
    simp only [tallyP, this, if_false, h]
  meth s path k ctx t w v dst h := (shop_ready shopCells).meth [] k ctx t w v dst h
  entry s path n a es h := by simp only [tallyP, h]
  sentry s path n p es h := by simp only [tallyP, h]

theorem shop_fewer {cells : List (Addr × Cell)} {lim : Nat}
    (h : (cells.all fun c => match c.2 with | .hmap es => decide (es.length < lim) | .smap es => decide (es.length < lim) | _ => true) = true) :
    Fewer lim (shopH cells).mem := by
  have key : ∀ {a c}, (shopH cells).mem a = some c → (a, c) ∈ cells := by
    intro a c hc
    simp only [shopH, univHeap, Option.map_eq_some_iff] at hc
    obtain ⟨x, hx, rfl⟩ := hc
    have h1 := List.find?_some hx
    simp only [decide_eq_true_eq] at h1
    rw [← h1]
    exact List.mem_of_find?_eq_some hx
  constructor
  · intro a es he
    have := List.all_eq_true.mp h _ (key he)
    simpa using this
  · intro a es he
    have := List.all_eq_true.mp h _ (key he)
    simpa using this

example : Fewer 5 (shopH shopCells).mem := shop_fewer (by decide +kernel)
example : OrderOk shopW.order := shop_order
example : ReprE shopW.E (shopH shopCells).mem (some (42, 100)) (.iface 42 fullV) := shop_holds 6 (by decide +kernel)
example : marshalL shopW tallyP 5 9 (some (42, 100)) [] 7 =
    (.ret (some (b! "{\"id\":9,\"when\":1000000000,\"Name\":\"base\",\"L\":[[1,2],[1,2]],\"M\":{\"k\":4},\"A\":[1,2,3],\"Any\":6,\"P\":{\"N\":5}}")) none, 10) := by
  decide +kernel

end Jettison.Props
