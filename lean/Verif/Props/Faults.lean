import Verif.Proofs.Judged
import Verif.Props.DocumentEx
import Verif.Props.Terminate

/-!
# Why a call fails (C51)

`Encodes` are the parts of a value that are encoded with it, `Fault` the reasons one of them has
for an error and `Trap` for a panic (Spec/Faults).
-/

namespace Jettison.Props
open Jettison Jettison.Spec Jettison.Model Jettison.Proofs

variable {W : World} {H : Heap} {M : MethV} {o : EncOpts} {t : TId} {v : Val}

/-- Nothing that is encoded with the value is a reason for an error or a panic. -/
def Faultless (W : World) (M : MethV) (o : EncOpts) (t : TId) (v : Val) : Prop :=
  ∀ t' ca' v', Encodes W o t (isPtrK (W.E t).kind) v t' ca' v' → (∀ e, ¬ Fault W M o t' ca' v' e) ∧ ¬ Trap W M o t' ca' v'

theorem appendJSON_judged (D : FaultReady W H M) {w : Addr} (hx : ReprE W.E H.mem (some (t, w)) (.iface t v)) (n : Nat) (path : Path) :
    Judged W M o t (isPtrK (W.E t).kind) v (appendJSON W (run W H o n) path (some (t, w)) []) := by
  rw [appendJSON_eq (run_agrees D.ready n).2 hx]
  rcases reprE_cases hx with h | ⟨d, y, h, hp⟩
  · cases h
  · cases h
    exact judged_held (judged_upto D n) hp path

/-- The outcomes of the two calls, by that of `appendJSON` on the empty buffer. -/
theorem calls_by (hl : FormatContract W.fmt) (D : FaultReady W H M) {w : Addr} (hx : ReprE W.E H.mem (some (t, w)) (.iface t v)) {opts : List (Option Opt)}
    (ho : prepare opts = .ok o) (n : Nat) (dst : Bytes) :
    marshalOpts W H n (some (t, w)) opts = marshalRet (appendJSON W (run W H o n) [] (some (t, w)) []) ∧
    appendOpts W H n dst (some (t, w)) opts = appendRet (Res.after dst (appendJSON W (run W H o n) [] (some (t, w)) [])) := by
  refine ⟨by simp only [marshalOpts, ho, marshalJSON], ?_⟩
  simp only [appendOpts, ho, appendTop]
  rw [appendJSON_eq (run_agrees D.ready n).2 hx, appendJSON_eq (run_agrees D.ready n).2 hx,
    ← pre_appendJSONV (pre_runV (contract_long hl) D.honest n) [] (.iface t v) dst]

/-- C51: the error of a call is about a part of the value that is encoded with it, and that part
is a reason for this very error: a float or a duration that is not finite, a malformed number, a
time outside of the years 0 to 9999, a type that is not supported, a method that returned this
error or malformed JSON, a `sync.Map` with a key that is nil or of a wrong type. -/
theorem C51_cause (D : FaultReady W H M) {w : Addr} (hx : ReprE W.E H.mem (some (t, w)) (.iface t v)) {opts : List (Option Opt)}
    (ho : prepare opts = .ok o) (n : Nat) (dst : Bytes) {e : Err}
    (h : (∃ r, marshalOpts W H n (some (t, w)) opts = .ret r (some (.encoding e))) ∨
      ∃ r, appendOpts W H n dst (some (t, w)) opts = .ret r (some (.encoding e))) :
    ∃ t' ca' v', Encodes W o t (isPtrK (W.E t).kind) v t' ca' v' ∧ Fault W M o t' ca' v' e := by
  have hJ := appendJSON_judged (o := o) D hx n []
  obtain ⟨e1, e2⟩ := calls_by D.fmt D hx ho n dst
  rw [e1, e2] at h
  cases hr : appendJSON W (run W H o n) [] (some (t, w)) [] with
  | fail e' b =>
    rw [hr] at h hJ
    have : e' = e := by
      rcases h with ⟨r, h⟩ | ⟨r, h⟩
      · cases h; rfl
      · cases h; rfl
    subst this
    exact hJ.fail _ _ rfl
  | _ => rw [hr] at h; rcases h with ⟨r, h⟩ | ⟨r, h⟩ <;> cases h

/-- C51: a call panics only for one of three reasons: a method that is called panics, in a
`sync.Map` that is encoded there is a nil value, or in a map or a `sync.Map` whose keys are sorted
there is a key with a text shorter than a pair of quotes. -/
theorem C51_panic (D : FaultReady W H M) {w : Addr} (hx : ReprE W.E H.mem (some (t, w)) (.iface t v)) {opts : List (Option Opt)}
    (ho : prepare opts = .ok o) (n : Nat) (dst : Bytes)
    (h : marshalOpts W H n (some (t, w)) opts = .panic ∨ appendOpts W H n dst (some (t, w)) opts = .panic) :
    ∃ t' ca' v', Encodes W o t (isPtrK (W.E t).kind) v t' ca' v' ∧ Trap W M o t' ca' v' := by
  have hJ := appendJSON_judged (o := o) D hx n []
  obtain ⟨e1, e2⟩ := calls_by D.fmt D hx ho n dst
  rw [e1, e2] at h
  cases hr : appendJSON W (run W H o n) [] (some (t, w)) [] with
  | panic => exact hJ.panic hr
  | _ => rw [hr] at h; rcases h with h | h <;> cases h

/-- C51: a call that ends succeeds on a value of which nothing that is encoded is at fault. -/
theorem C51_success (D : FaultReady W H M) {w : Addr} (hx : ReprE W.E H.mem (some (t, w)) (.iface t v)) {opts : List (Option Opt)}
    (ho : prepare opts = .ok o) (n : Nat) (dst : Bytes) (hn : marshalOpts W H n (some (t, w)) opts ≠ .nofuel) (hf : Faultless W M o t v) :
    ∃ b, marshalOpts W H n (some (t, w)) opts = .ret (some b) none ∧ appendOpts W H n dst (some (t, w)) opts = .ret (some (dst ++ b)) none := by
  have hJ := appendJSON_judged (o := o) D hx n []
  obtain ⟨e1, e2⟩ := calls_by D.fmt D hx ho n dst
  rw [e1] at hn
  rw [e1, e2]
  cases hr : appendJSON W (run W H o n) [] (some (t, w)) [] with
  | ok b => exact ⟨b, rfl, rfl⟩
  | fail e b =>
    obtain ⟨t', ca', v', h1, h2⟩ := hJ.fail _ _ hr
    exact absurd h2 ((hf _ _ _ h1).1 e)
  | panic =>
    obtain ⟨t', ca', v', h1, h2⟩ := hJ.panic hr
    exact absurd h2 (hf _ _ _ h1).2
  | bad => exact absurd hr (appendJSON_nobad (run_sound D.ready n).2 hx _ _)
  | nofuel => rw [hr] at hn; exact absurd rfl hn

/-- C51: conversely no part at fault goes unnoticed: if a call succeeds there is none, methods
that return the same whenever they are called assumed. -/
theorem C51_noticed (D : FaultReady W H M) (hM : PathFree M) {w : Addr} (hx : ReprE W.E H.mem (some (t, w)) (.iface t v)) {opts : List (Option Opt)}
    (ho : prepare opts = .ok o) (n : Nat) (dst : Bytes)
    (h : (∃ r, marshalOpts W H n (some (t, w)) opts = .ret r none) ∨ ∃ r, appendOpts W H n dst (some (t, w)) opts = .ret r none) :
    Faultless W M o t v := by
  have hJ := appendJSON_judged (o := o) D hx n []
  obtain ⟨e1, e2⟩ := calls_by D.fmt D hx ho n dst
  rw [e1, e2] at h
  cases hr : appendJSON W (run W H o n) [] (some (t, w)) [] with
  | ok b => exact hJ.ok _ hr hM
  | _ => rw [hr] at h; rcases h with ⟨r, h⟩ | ⟨r, h⟩ <;> cases h

/-- C51 on finite types and data, where the call ends (C33): it succeeds if and only if no part is
at fault. -/
theorem C51_iff {g n : Nat} {S : List TId} {c : Call} (hc : FiniteCall W g n c S M) (D : FaultReady (c.world W) c.heap M) (hM : PathFree M) {w : Addr}
    (hv : c.value = some (t, w)) (hx : ReprE W.E c.heap.mem (some (t, w)) (.iface t v)) {opts : List (Option Opt)} (ho : prepare opts = .ok o) :
    (∃ b, marshalOpts (c.world W) c.heap n (some (t, w)) opts = .ret (some b) none) ↔ Faultless (c.world W) M o t v := by
  constructor
  · rintro ⟨b, h⟩
    exact C51_noticed D hM hx ho n [] (.inl ⟨_, h⟩)
  · intro h
    obtain ⟨b, h1, -⟩ := C51_success D hx ho n [] (by
      simp only [marshalOpts, ho, marshalJSON]
      have := appendJSON_ends hc hv o [] []
      generalize appendJSON (c.world W) (run (c.world W) c.heap o n) [] (some (t, w)) [] = r at this
      cases r with
      | nofuel => exact absurd rfl this
      | _ => simp [marshalRet]) h
    exact ⟨b, h1⟩

/-! ## Plain data -/

theorem encodes1_within (G : GoTypes W.E W.ptrTo) {ca : Bool} {t' : TId} {ca' : Bool} {v' : Val} (hv : HasType W.E t v) (h : Encodes1 W o t ca v t' ca' v') :
    HasType W.E t' v' ∧ Within W.E t v t' v' := by
  cases h with
  | ptr _ hk => exact ⟨(has_ptr G hk hv).elim (fun h => by cases h) fun ⟨x, h1, h2⟩ => (by cases h1; exact h2), .step .refl (.ptr hk)⟩
  | iface _ hk =>
    refine ⟨?_, .step .refl .iface⟩
    rcases has_iface G hk hv with h | ⟨d, x, h, hx⟩
    · cases h
    · cases h; exact hx
  | slice _ hk _ hm =>
    refine ⟨?_, .step .refl (.slice hk hm)⟩
    rcases has_slice G hk hv with h | ⟨x, h1, h2⟩
    · cases h
    · cases h1; exact h2 _ hm
  | array _ hk _ hm =>
    refine ⟨?_, .step .refl (.array hk hm)⟩
    obtain ⟨x, h1, -, h2⟩ := has_array G hk hv
    cases h1; exact h2 _ hm
  | key _ hk _ _ _ hm =>
    refine ⟨?_, .step .refl (.key hk hm)⟩
    rcases has_map G hk hv with h | ⟨x, h1, h2, h3⟩
    · cases h
    · cases h1; exact h2 _ hm
  | elem _ hk _ hm =>
    refine ⟨?_, .step .refl (.elem hk hm)⟩
    rcases has_map G hk hv with h | ⟨x, h1, h2, h3⟩
    · cases h
    · cases h1; exact h3 _ hm
  | field _ hs hc _ hat =>
    obtain ⟨_, _, _, _, _, hpath, hprom, -⟩ := hc
    exact fieldAt_type G hat hs hv (promoted_type hs hprom)
  | skey hs hm hi =>
    refine ⟨?_, .step .refl (.skey hm hi)⟩
    obtain ⟨x, h1, h2, -⟩ := has_smap G hs hv
    cases h1
    rcases inIface_cases (h2 _ hm) with h | ⟨d, y, h, hy⟩
    · rw [h] at hi; cases hi
    · rw [h] at hi; cases hi; exact hy
  | selem hs hm hi =>
    refine ⟨?_, .step .refl (.selem hm hi)⟩
    obtain ⟨x, h1, -, h2⟩ := has_smap G hs hv
    cases h1
    rcases inIface_cases (h2 _ hm) with h | ⟨d, y, h, hy⟩
    · rw [h] at hi; cases hi
    · rw [h] at hi; cases hi; exact hy

/-- What is encoded with a value is within it. -/
theorem encodes_within (G : GoTypes W.E W.ptrTo) {ca : Bool} {t' : TId} {ca' : Bool} {v' : Val} (h : Encodes W o t ca v t' ca' v') (hv : HasType W.E t v) :
    Within W.E t v t' v' := by
  induction h with
  | refl => exact .refl
  | step h1 _ ih =>
    obtain ⟨a1, a2⟩ := encodes1_within G hv h1
    exact within_trans a2 (ih a1)

/-- A value of plain data: its type is neither natively handled nor has methods, a float is finite,
a channel, function or complex number it is not, and a map has keys that are strings or integers. -/
structure PlainData (E : Env) (t : TId) (v : Val) : Prop where
  special : (E t).special = none
  meths : ¬ MethSet.any (E t).meths
  pmeths : ¬ MethSet.any (E t).pmeths
  float : ∀ w b, v = .float w b → IsFinite w b
  other : (E t).kind ≠ .other
  map : ∀ k e, (E t).kind = .map k e → (E k).kind = .string ∨ ∃ i, (E k).kind = .int i

/-- C51: plain data is encoded without error, whatever the options. -/
theorem C51_plain (D : FaultReady W H M) {w : Addr} (hx : ReprE W.E H.mem (some (t, w)) (.iface t v)) {opts : List (Option Opt)}
    (ho : prepare opts = .ok o) (n : Nat) (dst : Bytes) (hn : marshalOpts W H n (some (t, w)) opts ≠ .nofuel)
    (hp : ∀ t' v', Within W.E t v t' v' → PlainData W.E t' v') :
    ∃ b, marshalOpts W H n (some (t, w)) opts = .ret (some b) none ∧ appendOpts W H n dst (some (t, w)) opts = .ret (some (dst ++ b)) none := by
  have hty : HasType W.E t v := by
    rcases reprE_cases hx with h | ⟨d, y, h, p, hp⟩
    · cases h
    · cases h; exact repr_hasType hp
  refine C51_success D hx ho n dst hn fun t' ca' v' h => ?_
  have hw := encodes_within D.ready.types h hty
  have P := hp _ _ hw
  have hb : ByKind W.E t' ca' := ⟨P.special, P.meths, fun _ _ => P.pmeths⟩
  constructor
  · intro e he
    rcases fault_byKind hb he with ⟨w, b, -, h2, h3⟩ | h | ⟨k, e, h, hk⟩
    · exact h3 (P.float _ _ h2)
    · exact P.other h
    · rcases P.map k e h with h' | ⟨i, h'⟩
      · exact hk (.inl h')
      · exact hk (.inr (.inl ⟨i, h'⟩))
  · intro ht
    cases ht with
    | method _ hp => exact absurd hb (picks_byKind hp)
    | nilElem hs => rw [P.special] at hs; cases hs
    | skey hs => rw [P.special] at hs; cases hs
    | key _ hk _ _ hkv hsk =>
      have := (hp _ _ (.step hw (.key hk hkv))).meths
      exact this (.inr (.inr (.inr (short_text hsk))))

/-! ## Examples -/

theorem shop_std : StdText shopW.E := by
  intro t s hs ht
  have h : ∀ t, (shopW.E t).special = none ∨ (shopW.E t).meths.text = false ∨ (shopW.E t).special = some .time := by
    intro t
    simp only [shopW, univW, univE]
    split
    · exact .inl rfl
    · rw [List.getD_eq_getElem?_getD]
      cases hg : shopDefs[t / 2]? with
      | none => exact .inl rfl
      | some d =>
        have : (shopDefs.all fun d => d.special == none || !d.meths.text || d.special == some .time) = true := by decide +kernel
        rw [List.all_eq_true] at this
        have := this d (List.mem_of_getElem? hg)
        simp only [Bool.or_eq_true, beq_iff_eq, Bool.not_eq_true', or_assoc] at this
        exact this
  rcases h t with h | h | h
  · rw [hs] at h; cases h
  · rw [ht] at h; cases h
  · rw [hs] at h; cases h; rfl

theorem shop_faults (cells : List (Addr × Cell)) : FaultReady shopW (shopH cells) (univM shopMeth) :=
  ⟨shop_ready _, toyFmt_contract, shop_honestM, shop_order, shop_valid, shop_std⟩

/-- A `map[int]interface{}` with, under 7, a `[]Loud` whose second element fails. -/
def blameCells : List (Addr × Cell) :=
  [(100, .hmap [(110, 120), (140, 150)]), (110, .int (.int 1)), (140, .int (.int 7)), (120, .eface (some (0, 110))), (150, .eface (some (46, 500))),
   (500, .slice 520 2), (520, .str (b! "loud")), (536, .str (b! "fail"))]

def blameV : Val := .map [(.int (.int 1), .iface 0 (.int (.int 1))), (.int (.int 7), .iface 46 (.slice [.str (b! "loud"), .str (b! "fail")]))]

/-- The hypotheses of `C51_cause`. -/
example : ∃ t' ca' v', Encodes shopW defaultEncOpts 32 false blameV t' ca' v' ∧
    Fault shopW (univM shopMeth) defaultEncOpts t' ca' v' (.marshaler 22 .json (.user 3)) :=
  C51_cause (opts := []) (shop_faults blameCells) (w := 100) (shop_holds 8 (by decide +kernel)) rfl 9 []
    (.inl ⟨none, by decide +kernel⟩)

/-- The hypotheses of `C51_panic`: a `sync.Map` with a nil value. -/
example : ∃ t' ca' v', Encodes shopW defaultEncOpts 30 false (.smap [(.iface 2 (.str (b! "k")), .nil)]) t' ca' v' ∧
    Trap shopW (univM shopMeth) defaultEncOpts t' ca' v' :=
  C51_panic (opts := []) (shop_faults [(100, .smap [(some (2, 110), none)]), (110, .str (b! "k"))]) (w := 100) (shop_holds 8 (by decide +kernel)) rfl 9 []
    (.inl (by decide +kernel))

/-- The hypotheses of `C51_panic`: a `[]Loud` with an element whose `MarshalJSON` panics. -/
example : ∃ t' ca' v', Encodes shopW defaultEncOpts 46 false (.slice [.str (b! "loud"), .str (b! "boom")]) t' ca' v' ∧
    Trap shopW (univM shopMeth) defaultEncOpts t' ca' v' :=
  C51_panic (opts := []) (shop_faults [(500, .slice 520 2), (520, .str (b! "loud")), (536, .str (b! "boom"))]) (w := 500) (shop_holds 8 (by decide +kernel)) rfl 9 []
    (.inl (by decide +kernel))

/-- The hypotheses of `C51_noticed`, and with its conclusion those of `C51_success`. -/
theorem big_faultless : Faultless shopW (univM shopMeth) defaultEncOpts 32 bigV :=
  C51_noticed (opts := []) (shop_faults bigCells) shop_pathFree (w := 100) big_holds rfl 9 [] (.inl ⟨_, big_text⟩)

example : ∃ b, appendOpts shopW (shopH bigCells) 9 (b! "x") (some (32, 100)) [] = .ret (some (b! "x" ++ b)) none := by
  obtain ⟨b, -, h⟩ := C51_success (opts := []) (shop_faults bigCells) (w := 100) big_holds rfl 9 (b! "x")
    (by have := big_text; intro h; rw [show marshalOpts shopW (shopH bigCells) 9 (some (32, 100)) [] = marshal shopW (shopH bigCells) 9 (some (32, 100)) from rfl, this] at h; cases h) big_faultless
  exact ⟨b, h⟩

/-- `PlainData` for the examples. -/
def plainB (t : TId) (v : Val) : Bool :=
  (shopW.E t).special.isNone && !anyMeth (shopW.E t).meths && !anyMeth (shopW.E t).pmeths && (match v with | .float _ _ => false | _ => true) &&
    (match (shopW.E t).kind with | .other => false | .map k _ => isStringK (shopW.E k).kind || isInteger (shopW.E k).kind | _ => true)

theorem plainB_plain (h : plainB t v = true) : PlainData shopW.E t v := by
  simp only [plainB, Bool.and_eq_true, Bool.not_eq_true', Option.isNone_iff_eq_none] at h
  obtain ⟨⟨⟨⟨h1, h2⟩, h3⟩, h4⟩, h5⟩ := h
  refine ⟨h1, fun h => by (rw [(anyMeth_iff _).mpr h] at h2; cases h2), fun h => by (rw [(anyMeth_iff _).mpr h] at h3; cases h3), ?_, ?_, ?_⟩
  · rintro w b rfl; cases h4
  · intro h; rw [h] at h5; cases h5
  · intro k e h
    rw [h] at h5
    simp only [Bool.or_eq_true] at h5
    rcases h5 with h5 | h5
    · exact .inl (isStringK_iff.mp h5)
    · refine .inr ?_
      revert h5
      cases (shopW.E k).kind <;> simp [isInteger]

/-- The two nodes of `ringCells`. -/
def ringV : Val := .ptr (.struct [.int (.int 1), .ptr (.struct [.int (.int 2), .nil])])

theorem ringV_holds : ReprE shopW.E (shopH ringCells).mem (some (129, 500)) (.iface 129 ringV) := shop_holds 9 (by decide +kernel)

theorem ringV_plain : ∀ t' v', Within shopW.E 129 ringV t' v' → PlainData shopW.E t' v' :=
  fun _ _ h => plainB_plain (allParts_within (n := 6) (P := plainB) (by decide +kernel) h)

/-- The hypotheses of `C51_plain`. -/
example : ∃ b, marshalOpts shopW (shopH ringCells) 9 (some (129, 500)) [some (.flag .noHTMLEscaping)] = .ret (some b) none ∧
    appendOpts shopW (shopH ringCells) 9 (b! "x") (some (129, 500)) [some (.flag .noHTMLEscaping)] = .ret (some (b! "x" ++ b)) none :=
  C51_plain (shop_faults ringCells) ringV_holds rfl 9 _ (by decide +kernel) ringV_plain

/-- The hypotheses of `C51_iff`. -/
example : (∃ b, marshalOpts (ringB.world shopW) ringB.heap 200 (some (129, 500)) [] = .ret (some b) none) ↔
    Faultless (ringB.world shopW) (univM shopMeth) defaultEncOpts 129 ringV :=
  C51_iff (opts := []) ringB_finite (shop_faults ringCells) shop_pathFree (w := 500) rfl ringV_holds rfl

end Jettison.Props
