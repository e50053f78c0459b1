import Verif.Props.Relay
import Verif.Props.StdEx
import Verif.Props.Transparent
import Verif.Props.Faults
import Verif.Proofs.Visits
import Verif.Props.MapsEx

/-!
# C77: pointers to natively handled types

A pointer to a type the encoder handles natively is encoded as what it points to, under every
option, if the pointer type has no methods: `*time.Duration`, `*json.Number`, `*sync.Map`. But
`*time.Time` and `*json.RawMessage` have `MarshalJSON`, which is called (finding 27): the options
about times have no effect, and a message that is not JSON is an error.
-/

namespace Jettison.Props
open Jettison Jettison.Spec Jettison.Model Jettison.Proofs

variable {W : World} {H : Heap} {M : MethV} {o : EncOpts} {p e : TId} {v : Val} {b : Bytes}

/-! ## Without methods -/

/-- A natively handled value encodes the same wherever it stands. -/
theorem native_same (R : Ready W H M) {ca ca' q q' : Bool} {i i' : Instr} {l l' : Loc} {s : Special} (hs : (W.E e).special = some s)
    (S : Stands W H e ca q i l v) (S' : Stands W H e ca' q' i' l' v) {n n' : Nat} {path : Path} {dst : Bytes}
    (h : run W H o n path i l dst ≠ .nofuel) (h' : run W H o n' path i' l' dst ≠ .nofuel) :
    run W H o n path i l dst = run W H o n' path i' l' dst := by
  obtain ⟨k, hk⟩ := S.made
  obtain ⟨k', hk'⟩ := S'.made
  rw [stands_runV R S] at h ⊢
  rw [stands_runV R S'] at h' ⊢
  rw [newInstruction_special hs hk] at h ⊢
  rw [newInstruction_special hs hk'] at h' ⊢
  rw [← runV_mono (Nat.le_max_left n n') h, ← runV_mono (Nat.le_max_right n n') h']

/-- C77: a call on a pointer without methods to a natively handled value and a call on the value
return the same, also an error, whatever the options. -/
theorem C77_pointer_partial (R : Ready W H M) (hk : (W.E p).kind = .ptr e) (hb : ByKind W.E p true) {s : Special} (hs : (W.E e).special = some s)
    {w w' : Addr} (hx : ReprE W.E H.mem (some (p, w)) (.iface p (.ptr v))) (hx' : ReprE W.E H.mem (some (e, w')) (.iface e v))
    (opts : List (Option Opt)) {n n' : Nat} (h : marshalOpts W H n (some (p, w)) opts ≠ .nofuel) (h' : marshalOpts W H n' (some (e, w')) opts ≠ .nofuel) :
    marshalOpts W H n (some (p, w)) opts = marshalOpts W H n' (some (e, w')) opts := by
  simp only [marshalOpts] at h h' ⊢
  cases hpr : prepare opts with
  | error e => rfl
  | ok o =>
    simp only [hpr, marshalJSON] at h h' ⊢
    have key : ∀ {r : Res}, marshalRet r ≠ .nofuel → r ≠ .nofuel := by rintro r h rfl; exact h rfl
    replace h := key h
    replace h' := key h'
    congr 1
    rcases entry (o := o) R hx n with ⟨-, e⟩ | ⟨j, l, m, S, -, e1⟩
    · exact absurd (e _ _) h
    · rcases entry (o := o) R hx' n' with ⟨-, e'⟩ | ⟨j', l', m', S', -, e2⟩
      · exact absurd (e' _ _) h'
      · rw [e1] at h ⊢
        rw [e2] at h' ⊢
        rcases C43_pointer (o := o) R S (byKind_any hb _) hk with ⟨hv, -⟩ | ⟨x, j2, a, hv, S2, hr⟩
        · cases hv
        · cases hv
          cases m with
          | zero => exact absurd rfl h
          | succ m =>
            rw [hr] at h ⊢
            exact native_same R hs S2 S' h h'

/-- C77: a nil pointer is `null`, with or without methods. -/
theorem C77_nil (D : FaultReady W H M) (DW : WriteReady W H M) (hP : PathFree M) (hk : (W.E p).kind = .ptr e) (hs : (W.E p).special = none)
    (hm : ByKind W.E p true ∨ ∃ m, Picks W.E p true m) {w : Addr} (hx : ReprE W.E H.mem (some (p, w)) (.iface p .nil)) {opts : List (Option Opt)}
    (ho : prepare opts = .ok o) (n : Nat) (dst : Bytes) (hn : marshalOpts W H n (some (p, w)) opts ≠ .nofuel) :
    marshalOpts W H n (some (p, w)) opts = .ret (some (b! "null")) none ∧
      appendOpts W H n dst (some (p, w)) opts = .ret (some (dst ++ b! "null")) none := by
  have hip : isPtrK (W.E p).kind = true := by rw [hk]; rfl
  have hf : TimesFine W p .nil := by
    intro t' x hw
    rcases within_first hw with ⟨-, h⟩ | ⟨t1, v1, h, -⟩ <;> cases h
  refine call_text D DW hP hx hf ho (fun c => ?_) n dst hn
  rw [hip]
  rcases hm with hb | ⟨m, hp⟩
  · constructor
    · intro h
      rcases w_ptr hb hk h with ⟨-, h⟩ | ⟨x, h, -⟩
      · exact h
      · cases h
    · rintro rfl; exact .ptrNil hb hk
  · have hh : MethSet.Has (W.E p).meths m := by
      rcases hp.1 with h | ⟨-, h, -⟩
      · exact h
      · exact absurd ⟨e, hk⟩ h
    constructor
    · intro h
      rcases w_meth hs hp h with ⟨-, h, -⟩ | ⟨rt, x, u, h, -⟩
      · exact h
      · cases h with
        | own _ _ h => exact absurd rfl (h ⟨e, hk⟩)
        | addr h => exact absurd hh h
    · rintro rfl; exact .methNil hs hp hh (.inl ⟨e, hk⟩)

/-! ## With `MarshalJSON` -/

/-- The type is a pointer on which `MarshalJSON` is called: `*time.Time` and `*json.RawMessage` are. -/
structure JsonPointer (E : Env) (p e : TId) : Prop where
  kind : (E p).kind = .ptr e
  special : (E p).special = none
  picks : Picks E p true .json

theorem JsonPointer.isPtr {E : Env} (J : JsonPointer E p e) : isPtrK (E p).kind = true := by rw [J.kind]; rfl

theorem JsonPointer.receives {E : Env} {ptrTo : TId → TId} (J : JsonPointer E p e) : Receives E ptrTo p .json (.ptr v) p (.ptr v) p := by
  refine .own ?_ ?_ (by simp)
  · rcases J.picks.1 with h | ⟨-, h, -⟩
    · exact h
    · exact absurd ⟨e, J.kind⟩ h
  · rintro ⟨k, h⟩; rw [J.kind] at h; cases h

theorem clear_portable {t : Bytes} (h : ∀ c ∈ t, ClearByte c) : Portable (b! "\"" ++ t ++ b! "\"") := by
  have hall : ∀ c ∈ b! "\"" ++ t ++ b! "\"", c.toNat < 0x80 ∧ c ≠ c! '<' ∧ c ≠ c! '>' ∧ c ≠ c! '&' := by
    intro c hc
    simp only [List.mem_append] at hc
    rcases hc with (hc | hc) | hc
    · rw [List.mem_singleton.mp hc]; decide
    · obtain ⟨-, h2, -, -, h5, h6, h7⟩ := h c hc; exact ⟨h2, h5, h6, h7⟩
    · rw [List.mem_singleton.mp hc]; decide
  refine ⟨⟨.str t, ?_⟩, ⟨fun h => (hall _ h).2.1 rfl, fun h => (hall _ h).2.2.1 rfl, fun h => (hall _ h).2.2.2 rfl⟩, ?_, ?_⟩
  · have hp : unescape t = some t := unescape_plain t fun c hc => ⟨(h c hc).1, (h c hc).2.2.1, (h c hc).2.2.2.1⟩
    have : b! "\"" ++ t ++ b! "\"" = strToken t := rfl
    rw [this]
    exact Gr.str t t hp
  · intro hi
    have := (hall 0xE2 (hi.subset (by decide))).1
    exact absurd this (by decide)
  · intro hi
    have := (hall 0xE2 (hi.subset (by decide))).1
    exact absurd this (by decide)

/-- C77: as long as neither `UnixTime` nor a layout is given, a pointer to a time is encoded as the
time: `MarshalJSON` returns the text in the layout of RFC 3339. -/
theorem C77_time (D : FaultReady W H M) (DW : WriteReady W H M) (hP : PathFree M) (J : JsonPointer W.E p e) (hs : (W.E e).special = some .time) {x : GoTime}
    {w w' : Addr} (hx : ReprE W.E H.mem (some (p, w)) (.iface p (.ptr (.time x)))) (hx' : ReprE W.E H.mem (some (e, w')) (.iface e (.time x)))
    (hf : TimesFine W p (.ptr (.time x))) (hd : FromDec31 x) {c : Bytes} (hc : IsRFC3339 x true c) {path : List TId}
    (hm : M path .json none p (.ptr (.time x)) [] = .ok (b! "\"" ++ c ++ b! "\"")) {opts : List (Option Opt)} (ho : prepare opts = .ok o)
    (hu : bmHas o.flags .unixTime = false) (hl : o.layout = .rfc3339Nano) (n : Nat) (dst : Bytes) (hn : marshalOpts W H n (some (p, w)) opts ≠ .nofuel)
    (hn' : marshalOpts W H n (some (e, w')) opts ≠ .nofuel) :
    (marshalOpts W H n (some (p, w)) opts = .ret (some (b! "\"" ++ c ++ b! "\"")) none ∧
      marshalOpts W H n (some (e, w')) opts = .ret (some (b! "\"" ++ c ++ b! "\"")) none) ∧
    appendOpts W H n dst (some (p, w)) opts = appendOpts W H n dst (some (e, w')) opts := by
  have hb := clear_portable (rfc3339_bytes hc)
  obtain ⟨h1, h2⟩ := C60_method D DW hP hx hf ho J.special (by rw [J.isPtr]; exact J.picks) J.receives hm hb n dst hn
  have hf' : TimesFine W e (.time x) := by
    intro t' y hw
    exact hf t' y (within_trans (.step .refl (.ptr J.kind)) hw)
  obtain ⟨h3, h4⟩ := call_text (b := b! "\"" ++ c ++ b! "\"") D DW hP hx' hf' ho (fun z => by
    have key : TimeText W o x (b! "\"" ++ c ++ b! "\"") := .nano hu hl (.inl ⟨hd, hc⟩)
    constructor
    · intro h
      obtain ⟨y, hy, -, ht⟩ := w_time hs h
      cases hy
      exact timeText_unique ht key
    · rintro rfl
      exact .time hs (year_of_text hc) key) n dst hn'
  exact ⟨⟨h1, h3⟩, by rw [h2, h4]⟩

/-- C77, finding 27: for a pointer on which `MarshalJSON` is called only two options are of any
effect, those about the text that is returned. So `UnixTime` and `TimeLayout` are of none. -/
theorem C77_ignored (D : FaultReady W H M) (DW : WriteReady W H M) (hP : PathFree M) (J : JsonPointer W.E p e) {w : Addr}
    (hx : ReprE W.E H.mem (some (p, w)) (.iface p (.ptr v))) (hf : TimesFine W p (.ptr v)) {o' : EncOpts} {opts opts' : List (Option Opt)}
    (ho : prepare opts = .ok o) (ho' : prepare opts' = .ok o') (h1 : bmHas o.flags .noCompact = bmHas o'.flags .noCompact)
    (h2 : bmHas o.flags .noHTMLEscaping = bmHas o'.flags .noHTMLEscaping) (n : Nat) (hn' : marshalOpts W H n (some (p, w)) opts' ≠ .nofuel)
    (h : marshalOpts W H n (some (p, w)) opts = .ret (some b) none) : marshalOpts W H n (some (p, w)) opts' = .ret (some b) none := by
  have hp : Picks W.E p (isPtrK (W.E p).kind) .json := by rw [J.isPtr]; exact J.picks
  have hw := (C56_bytes DW hx hf ho).1 b h
  have hcop : ∀ {a c}, CopiedAs o a c → CopiedAs o' a c := by
    intro a c hc
    cases hc with
    | verbatim h => exact .verbatim (h1 ▸ h)
    | compact h hs => exact .compact (h1 ▸ h) (h2 ▸ hs)
  have key : MethText M o' p (.ptr v) .json b := by
    cases w_called J.special hp J.receives hw with
    | json hm hj hc => exact .json hm (fun h => hj (h1.trans h)) (hcop hc)
  refine (call_text (b := b) D DW hP hx hf ho' (fun c => ?_) n [] hn').1
  constructor
  · intro h; exact methText_unique hP (w_called J.special hp J.receives h) key
  · rintro rfl; exact .meth J.special hp J.receives key

theorem squeezed_quote {html : Bool} {s r : Bytes} (h : Squeezed html .out (c! '"' :: s) r) : r.head? = some (c! '"') := by
  generalize hy : c! '"' :: s = y at h
  generalize hpl : Place.out = pl at h
  cases h with
  | begin => rfl
  | html _ g => cases hy; rcases g with g | g | g <;> exact absurd g (by decide)
  | sep8 | sep9 => exact absurd (List.cons.inj hy).1 (by decide)
  | space g => cases hy; exact absurd g (by decide)
  | out _ _ g => cases hy; exact absurd rfl g
  | nil => cases hy
  | close | backslash | lit | esc => cases hpl

/-- C77, finding 27: with `UnixTime` a pointer to a time is not encoded as the time, which is a
number, when `MarshalJSON` returns a string, as that of `time.Time` does. -/
theorem C77_unix_wrong (DW : WriteReady W H M) (hP : PathFree M) (J : JsonPointer W.E p e) (hs : (W.E e).special = some .time) {x : GoTime}
    {w w' : Addr} (hx : ReprE W.E H.mem (some (p, w)) (.iface p (.ptr (.time x)))) (hx' : ReprE W.E H.mem (some (e, w')) (.iface e (.time x)))
    (hf : TimesFine W p (.ptr (.time x))) {path : List TId} {c : Bytes} (hm : M path .json none p (.ptr (.time x)) [] = .ok (c! '"' :: c))
    {opts : List (Option Opt)} (ho : prepare opts = .ok o) (hu : bmHas o.flags .unixTime = true) {n n' : Nat} {r r' : Bytes}
    (h : marshalOpts W H n (some (p, w)) opts = .ret (some r) none) (h' : marshalOpts W H n' (some (e, w')) opts = .ret (some r') none) :
    IntLiteral r' x.unix ∧ r.head? = some (c! '"') ∧ r ≠ r' := by
  have hp : Picks W.E p (isPtrK (W.E p).kind) .json := by rw [J.isPtr]; exact J.picks
  have hf' : TimesFine W e (.time x) := fun t' y hw => hf t' y (within_trans (.step .refl (.ptr J.kind)) hw)
  have hw := (C56_bytes DW hx hf ho).1 r h
  have hw' := (C56_bytes DW hx' hf' ho).1 r' h'
  have hlit : IntLiteral r' x.unix := by
    obtain ⟨y, hy, -, ht⟩ := w_time hs hw'
    cases hy
    cases ht with
    | unix _ h => exact h
    | rfc3339 h | nano h | layout h => rw [hu] at h; cases h
  have hq : r.head? = some (c! '"') := by
    cases w_called J.special hp J.receives hw with
    | json hm' _ hc =>
      rw [hP _ path, hm] at hm'
      cases hm'
      cases hc with
      | verbatim => rfl
      | compact _ hq =>
        exact squeezed_quote hq
  refine ⟨hlit, hq, fun heq => ?_⟩
  subst heq
  cases r with
  | nil => cases hq
  | cons d r =>
    simp only [List.head?_cons, Option.some.injEq] at hq
    subst hq
    generalize x.unix = z at hlit
    cases hlit with
    | nonneg _ hi => exact absurd rfl (intPart_clear hi _ List.mem_cons_self).2.2.1

/-- C77, finding 27: a `json.RawMessage` that is not JSON is written, but a pointer to it is an error. -/
theorem C77_raw_wrong (D : FaultReady W H M) (DW : WriteReady W H M) (hP : PathFree M) (J : JsonPointer W.E p e) (hs : (W.E e).special = some .rawMessage)
    {vs : List Val} {w w' : Addr} (hv : AsBytes vs b) (hx : ReprE W.E H.mem (some (p, w)) (.iface p (.ptr (.slice vs))))
    (hx' : ReprE W.E H.mem (some (e, w')) (.iface e (.slice vs))) (hf : TimesFine W e (.slice vs)) {path : List TId}
    (hm : M path .json none p (.ptr (.slice vs)) [] = .ok b) (hj : ∀ j, ¬ JsonText j b) {opts : List (Option Opt)} (ho : prepare opts = .ok o)
    (hc : bmHas o.flags .noCompact = false) {n n' : Nat} (hn' : marshalOpts W H n' (some (e, w')) opts ≠ .nofuel) :
    (∃ c, marshalOpts W H n' (some (e, w')) opts = .ret (some c) none) ∧ ¬ ∃ r, marshalOpts W H n (some (p, w)) opts = .ret r none := by
  constructor
  · obtain ⟨r, hr, -⟩ := appendCompactJSON_squeezed (!bmHas o.flags .noHTMLEscaping) b
    obtain ⟨c, h, -⟩ := (C56_complete D DW hP hx' hf ho (.raw hs hv (.compact hc hr)) n' [] hn').1
    exact ⟨c, h⟩
  · intro h
    have hp : Picks W.E p (isPtrK (W.E p).kind) .json := by rw [J.isPtr]; exact J.picks
    exact (C51_noticed D hP hx ho n [] (.inl h) _ _ _ .refl).1 _ (.malformed J.special hp J.receives hm hc hj)

end Jettison.Props
