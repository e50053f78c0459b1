import Verif.Spec.Messages
import Verif.Model.Messages
import Verif.Props.Faults
import Verif.Props.Options

/-!
# Error messages and causes (C54)
-/

namespace Jettison.Props
open Jettison Jettison.Spec Jettison.Model Jettison.Proofs

variable {W : World} {H : Heap} {M : MethV} {o : EncOpts} {t : TId} {v : Val}

theorem nonFinite_text {w : FWidth} {b : Nat} (hf : ¬ IsFinite w b) :
    (formatNonFinite w b = b! "NaN" ∧ IsNaN w b) ∨ (formatNonFinite w b = b! "+Inf" ∧ IsBits w b (posInf w)) ∨
      (formatNonFinite w b = b! "-Inf" ∧ IsBits w b (negInf w)) := by
  have hf' := hf
  simp only [formatNonFinite]
  split
  · refine .inl ⟨rfl, hf, ?_, ?_⟩ <;> cases w <;> simp only [IsFinite, expField, FWidth.mant, FWidth.exp, FWidth.bits, IsBits, posInf, negInf] at * <;> omega
  · split
    · refine .inr (.inr ⟨rfl, ?_⟩)
      cases w <;> simp only [IsFinite, expField, FWidth.mant, FWidth.exp, FWidth.bits, IsBits, posInf, negInf] at * <;> omega
    · refine .inr (.inl ⟨rfl, ?_⟩)
      cases w <;> simp only [IsFinite, expField, FWidth.mant, FWidth.exp, FWidth.bits, IsBits, posInf, negInf] at * <;> omega

/-- The message of an error is true of the part that is the reason for it. -/
theorem fault_blames (N : Texts) {ca : Bool} {e : Err} (h : Fault W M o t ca v e) : Blames W N.typ N.quote N.user M o (e.text N) t ca v := by
  have hfl : ∀ {w b}, IsFloat W o t ca v w b → ¬ IsFinite w b → Blames W N.typ N.quote N.user M o ((Err.unsupportedValue w b).text N) t ca v := by
    intro w b h1 h2
    simp only [Err.text]
    rcases nonFinite_text h2 with ⟨e, h⟩ | ⟨e, h⟩ | ⟨e, h⟩ <;> rw [e]
    · exact .nan h1 h
    · exact .posInf h1 h
    · exact .negInf h1 h
  cases h with
  | float hb hk hf => exact hfl (.float hb hk) hf
  | seconds hs ho hf => exact hfl (.seconds hs ho) hf
  | minutes hs ho hf => exact hfl (.minutes hs ho) hf
  | number hs _ _ hn => exact .number hs hn
  | time hs hn => exact .time hs hn
  | typ hb hk => exact .typ hb hk
  | method hs hp hr hm =>
    rename_i m _ _ u id _
    have := Blames.method (typ := N.typ) (quote := N.quote) (user := N.user) hp hr hm
    cases m <;> exact this
  | malformed hs hp hr hm _ hj => 
    have := Blames.malformed (typ := N.typ) (quote := N.quote) (user := N.user) (o := o) hp hr hm hj
    simpa [Err.text, UErr.text, funcName] using this
  | nilKey hs hm hk => exact .nilKey hs hm hk
  | badKey hs hm hk hd => exact .badKey hs hm hk hd

/-- C54: the message of the error of a call is true of a part of the value that is encoded with it:
it names the number NaN, +Inf or -Inf, the literal, the type, the key's type or the method that the
part has, and quotes the message of the error that the method returned. -/
theorem C54_message (D : FaultReady W H M) (N : Texts) {w : Addr} (hx : ReprE W.E H.mem (some (t, w)) (.iface t v)) {opts : List (Option Opt)}
    (ho : prepare opts = .ok o) (n : Nat) (dst : Bytes) {e : ApiErr}
    (h : (∃ r, marshalOpts W H n (some (t, w)) opts = .ret r (some e)) ∨ ∃ r, appendOpts W H n dst (some (t, w)) opts = .ret r (some e)) :
    ∃ t' ca' v', Encodes W o t (isPtrK (W.E t).kind) v t' ca' v' ∧ Blames W N.typ N.quote N.user M o (e.text N) t' ca' v' := by
  cases e with
  | encoding e =>
    obtain ⟨t', ca', v', h1, h2⟩ := C51_cause D hx ho n dst h
    exact ⟨t', ca', v', h1, fault_blames N h2⟩
  | invalidOption e =>
    obtain ⟨e1, e2⟩ := calls_by D.fmt D hx ho n dst
    rw [e1, e2] at h
    generalize appendJSON W (run W H o n) [] (some (t, w)) [] = r at h
    cases r <;> rcases h with ⟨r, h⟩ | ⟨r, h⟩ <;> cases h

/-! ## Telling the errors apart -/

theorem heads_clash {p q a b : Bytes} (h : p ++ a = q ++ b) : p <+: q ∨ q <+: p := by
  rcases List.append_eq_append_iff.mp h with ⟨c, h1, -⟩ | ⟨c, h1, -⟩
  · exact .inl ⟨c, h1.symm⟩
  · exact .inr ⟨c, h1.symm⟩

/-- Two texts with different heads are different. -/
theorem heads_ne {p q a b : Bytes} (h : (!p.isPrefixOf q && !q.isPrefixOf p) = true) : p ++ a ≠ q ++ b := by
  intro he
  rw [Bool.and_eq_true, Bool.not_eq_true', Bool.not_eq_true'] at h
  rcases heads_clash he with hc | hc
  · rw [List.isPrefixOf_iff_prefix.mpr hc] at h; exact absurd h.1 (by decide)
  · rw [List.isPrefixOf_iff_prefix.mpr hc] at h; exact absurd h.2 (by decide)

/-- What the message of an error starts with. -/
def headOf : ApiErr → Bytes
  | .invalidOption _ => b! "json: invalid option: "
  | .encoding (.marshaler _ .json _) => b! "json: error calling MarshalJSON for type "
  | .encoding (.marshaler _ .text _) => b! "json: error calling MarshalText for type "
  | .encoding (.marshaler _ .append _) => b! "json: error calling AppendJSON for type "
  | .encoding (.marshaler _ .appendCtx _) => b! "json: error calling AppendJSONContext for type "
  | .encoding (.unsupportedType _) => b! "json: unsupported type: "
  | .encoding (.unsupportedValue _ _) => b! "json: unsupported value: "
  | .encoding (.numberLiteral _) => b! "json: invalid number literal "
  | .encoding .timeRange => b! "time: year outside of range [0,9999]"
  | .encoding .syncMapNilKey => b! "unsupported nil key in sync.Map"
  | .encoding (.syncMapKey _) => b! "unsupported key of type "

/-- And what it goes on with. -/
def tailOf (N : Texts) : ApiErr → Bytes
  | .invalidOption e => e.text
  | .encoding (.marshaler t _ e) => N.typ t ++ b! ": " ++ causeText N.user e
  | .encoding (.unsupportedType t) => N.typ t
  | .encoding (.unsupportedValue w b) => formatNonFinite w b
  | .encoding (.numberLiteral s) => N.quote s
  | .encoding .timeRange => []
  | .encoding .syncMapNilKey => []
  | .encoding (.syncMapKey t) => N.typ t ++ b! " in sync.Map"

theorem text_split (N : Texts) (e : ApiErr) : e.text N = headOf e ++ tailOf N e := by
  cases e with
  | invalidOption e => rfl
  | encoding e =>
    cases e with
    | marshaler t m e => cases m <;> cases e <;> simp [ApiErr.text, Err.text, headOf, tailOf, funcName, UErr.text, causeText]
    | _ => simp [ApiErr.text, Err.text, headOf, tailOf]

theorem colon_split {a b x y : Bytes} (ha : c! ':' ∉ a) (hb : c! ':' ∉ b) (h : a ++ (c! ':' :: x) = b ++ (c! ':' :: y)) : a = b ∧ x = y := by
  induction a generalizing b with
  | nil =>
    cases b with
    | nil => cases h; exact ⟨rfl, rfl⟩
    | cons c b => cases h; exact absurd (List.mem_cons_self ..) hb
  | cons c a ih =>
    cases b with
    | nil => cases h; exact absurd (List.mem_cons_self ..) ha
    | cons d b =>
      simp only [List.cons_append, List.cons.injEq] at h
      obtain ⟨rfl, h⟩ := h
      obtain ⟨rfl, h'⟩ := ih (fun h => ha (List.mem_cons_of_mem _ h)) (fun h => hb (List.mem_cons_of_mem _ h)) h
      exact ⟨rfl, h'⟩

/-- The value is one that an error can name. -/
def Nameable : ApiErr → Prop
  | .encoding (.unsupportedValue w b) => ¬ IsFinite w b
  | _ => True

theorem same_text (N : Texts) (hq : ∀ s s', N.quote s = N.quote s' → s = s') (hc : ∀ t, c! ':' ∉ N.typ t) {e e' : ApiErr} (he : Nameable e) (he' : Nameable e')
    (h : e.text N = e'.text N) : SameCause N.typ N.user e e' := by
  rw [text_split, text_split] at h
  by_cases hh : (!(headOf e).isPrefixOf (headOf e') && !(headOf e').isPrefixOf (headOf e)) = true
  · exact absurd h (heads_ne hh)
  · have key : ∀ {x y : ApiErr}, headOf x = headOf y → headOf x ++ tailOf N x = headOf y ++ tailOf N y → tailOf N x = tailOf N y := by
      intro x y h1 h2
      rw [h1] at h2
      exact List.append_cancel_left h2
    have meth : ∀ {t t' : TId} {u u' : UErr}, N.typ t ++ b! ": " ++ causeText N.user u = N.typ t' ++ b! ": " ++ causeText N.user u' →
        N.typ t = N.typ t' ∧ causeText N.user u = causeText N.user u' := by
      intro t t' u u' h
      simp only [List.append_assoc] at h
      obtain ⟨h1, h2⟩ := colon_split (hc t) (hc t') h
      exact ⟨h1, List.append_cancel_left (as := b! " ") h2⟩
    have val : ∀ {w b w' b'}, ¬ IsFinite w b → ¬ IsFinite w' b' → formatNonFinite w b = formatNonFinite w' b' →
        SameCause N.typ N.user (.encoding (.unsupportedValue w b)) (.encoding (.unsupportedValue w' b')) := by
      intro w b w' b' h1 h2 h
      rcases nonFinite_text h1 with ⟨e1, h1⟩ | ⟨e1, h1⟩ | ⟨e1, h1⟩ <;> rcases nonFinite_text h2 with ⟨e2, h2⟩ | ⟨e2, h2⟩ | ⟨e2, h2⟩ <;> rw [e1, e2] at h <;>
        first
          | exact .nan h1 h2
          | exact .posInf h1 h2
          | exact .negInf h1 h2
          | exact absurd h (by decide)
    cases e with
    | invalidOption e =>
      cases e' with
      | invalidOption e' =>
        have : e.text = e'.text := key (x := .invalidOption e) (y := .invalidOption e') (by rfl) h
        cases e <;> cases e' <;> first | exact .option | exact absurd this (by decide)
      | encoding e' =>
        exfalso; cases e' with
        | marshaler _ m _ => cases m <;> exact hh rfl
        | _ => exact hh rfl
    | encoding e =>
      cases e' with
      | invalidOption e' =>
        exfalso; cases e with
        | marshaler _ m _ => cases m <;> exact hh rfl
        | _ => exact hh rfl
      | encoding e' =>
        cases e with
        | marshaler t m u =>
          cases e' with
          | marshaler t' m' u' =>
            cases m <;> cases m' <;> first
              | exact absurd rfl hh
              | (obtain ⟨h1, h2⟩ := meth (key (by rfl) h); exact .method h1 h2)
          | _ => exfalso; cases m <;> exact hh rfl
        | unsupportedType t => 
          cases e' with
          | unsupportedType t' => exact .typ (key (by rfl) h)
          | marshaler _ m _ => exfalso; cases m <;> exact hh rfl
          | _ => exact absurd rfl hh
        | unsupportedValue w b =>
          cases e' with
          | unsupportedValue w' b' => exact val he he' (key (by rfl) h)
          | marshaler _ m _ => exfalso; cases m <;> exact hh rfl
          | _ => exact absurd rfl hh
        | numberLiteral s =>
          cases e' with
          | numberLiteral s' => rw [hq _ _ (key (by rfl) h)]; exact .number
          | marshaler _ m _ => exfalso; cases m <;> exact hh rfl
          | _ => exact absurd rfl hh
        | timeRange =>
          cases e' with
          | timeRange => exact .time
          | marshaler _ m _ => exfalso; cases m <;> exact hh rfl
          | _ => exact absurd rfl hh
        | syncMapNilKey =>
          cases e' with
          | syncMapNilKey => exact .nilKey
          | marshaler _ m _ => exfalso; cases m <;> exact hh rfl
          | _ => exact absurd rfl hh
        | syncMapKey t =>
          cases e' with
          | syncMapKey t' => exact .badKey (List.append_cancel_right (key (by rfl) h))
          | marshaler _ m _ => exfalso; cases m <;> exact hh rfl
          | _ => exact absurd rfl hh

/-- Some call on some value, with some options, returns the error. -/
def Issued (W : World) (H : Heap) (e : ApiErr) : Prop :=
  ∃ t w v n dst opts, ReprE W.E H.mem (some (t, w)) (.iface t v) ∧
    ((∃ r, marshalOpts W H n (some (t, w)) opts = .ret r (some e)) ∨ ∃ r, appendOpts W H n dst (some (t, w)) opts = .ret r (some e))

theorem issued_nameable (D : FaultReady W H M) {e : ApiErr} (h : Issued W H e) : Nameable e := by
  obtain ⟨t, w, v, n, dst, opts, hx, h⟩ := h
  cases e with
  | invalidOption e => trivial
  | encoding e =>
    cases e with
    | unsupportedValue w' b =>
      cases ho : prepare opts with
      | error e => simp [marshalOpts, appendOpts, ho] at h
      | ok o =>
        obtain ⟨t', ca', v', -, hf⟩ := C51_cause D hx ho n dst h
        cases hf <;> assumption
    | _ => trivial

/-- C54: errors with the same message, of whatever calls, are of the same sort and about the same,
if the names of types have no colon, as those of named types and types made of them. -/
theorem C54_distinct (D : FaultReady W H M) (N : Texts) (hq : ∀ s s', N.quote s = N.quote s' → s = s') (hc : ∀ t, c! ':' ∉ N.typ t) {e e' : ApiErr}
    (h : Issued W H e) (h' : Issued W H e') (he : e.text N = e'.text N) : SameCause N.typ N.user e e' :=
  same_text N hq hc (issued_nameable D h) (issued_nameable D h') he

/-! ## The wrapped error -/

/-- C54: `errors.Unwrap` of the error of a call gives the very error that the method of an encoded
part returned. -/
theorem C54_unwrap (D : FaultReady W H M) {w : Addr} (hx : ReprE W.E H.mem (some (t, w)) (.iface t v)) {opts : List (Option Opt)}
    (ho : prepare opts = .ok o) (n : Nat) (dst : Bytes) {e : ApiErr} {id : Nat}
    (h : (∃ r, marshalOpts W H n (some (t, w)) opts = .ret r (some e)) ∨ ∃ r, appendOpts W H n dst (some (t, w)) opts = .ret r (some e))
    (hu : e.unwrap = some (.user id)) :
    ∃ t' ca' v' m rt x u path, Encodes W o t (isPtrK (W.E t).kind) v t' ca' v' ∧ Picks W.E t' ca' m ∧ Receives W.E W.ptrTo t' m v' rt x u ∧
      M path m (argCtx o m) rt x [] = .err id := by
  cases e with
  | invalidOption e => cases hu
  | encoding e =>
    obtain ⟨t', ca', v', h1, h2⟩ := C51_cause D hx ho n dst h
    cases h2 with
    | method hs hp hr hm => cases hu; exact ⟨_, _, _, _, _, _, _, _, h1, hp, hr, hm⟩
    | _ => cases hu

/-- C54: if it gives nil, the reason is not in a method: no method of the part is called, or it is a
type, number, time or key that is at fault. -/
theorem C54_unwrap_none (D : FaultReady W H M) {w : Addr} (hx : ReprE W.E H.mem (some (t, w)) (.iface t v)) {opts : List (Option Opt)}
    (ho : prepare opts = .ok o) (n : Nat) (dst : Bytes) {e : ApiErr}
    (h : (∃ r, marshalOpts W H n (some (t, w)) opts = .ret r (some e)) ∨ ∃ r, appendOpts W H n dst (some (t, w)) opts = .ret r (some e))
    (hu : e.unwrap = none) :
    ∃ t' ca' v' e', e = .encoding e' ∧ Encodes W o t (isPtrK (W.E t).kind) v t' ca' v' ∧ Fault W M o t' ca' v' e' ∧
      (ByKind W.E t' ca' ∨ (W.E t').special ≠ none) := by
  cases e with
  | invalidOption e =>
    obtain ⟨e1, e2⟩ := calls_by D.fmt D hx ho n dst
    rw [e1, e2] at h
    generalize appendJSON W (run W H o n) [] (some (t, w)) [] = r at h
    cases r <;> rcases h with ⟨r, h⟩ | ⟨r, h⟩ <;> cases h
  | encoding e =>
    obtain ⟨t', ca', v', h1, h2⟩ := C51_cause D hx ho n dst h
    refine ⟨t', ca', v', e, rfl, h1, h2, ?_⟩
    cases h2 with
    | method => cases hu
    | malformed => cases hu
    | float hb => exact .inl hb
    | typ hb => exact .inl hb
    | seconds hs => exact .inr (by rw [hs]; nofun)
    | minutes hs => exact .inr (by rw [hs]; nofun)
    | number hs => exact .inr (by rw [hs]; nofun)
    | time hs => exact .inr (by rw [hs]; nofun)
    | nilKey hs => exact .inr (by rw [hs]; nofun)
    | badKey hs => exact .inr (by rw [hs]; nofun)

/-! ## Options -/

/-- C54: the message about rejected options tells which one: the first of context, time layout and
duration format that is not acceptable. -/
theorem C54_option (N : Texts) (l : List (Option Opt)) {e : OptErr} (h : prepare l = .error e) :
    ((ApiErr.invalidOption e).text N = b! "json: invalid option: nil context" ∧ lastSetting settingContext (some 0) l = none) ∨
    ((ApiErr.invalidOption e).text N = b! "json: invalid option: empty time layout" ∧ lastSetting settingContext (some 0) l ≠ none ∧
      lastSetting settingLayout layoutRFC3339Nano l = []) ∨
    ((ApiErr.invalidOption e).text N = b! "json: invalid option: unknown duration format" ∧ lastSetting settingContext (some 0) l ≠ none ∧
      lastSetting settingLayout layoutRFC3339Nano l ≠ [] ∧ ¬ (0 ≤ lastSetting settingDuration 5 l ∧ lastSetting settingDuration 5 l ≤ 5)) := by
  obtain ⟨-, h2, h3, h4, -, -⟩ := C29_effect l
  rw [← h2, ← h3, ← h4]
  unfold prepare at h
  split at h
  · simp only at h
    generalize defaultEncOpts.apply l = o at h
    unfold EncOpts.validate durationFmtValid at h
    by_cases c1 : o.ctx = none
    · simp only [c1, if_true] at h; cases h
      exact .inl ⟨rfl, c1⟩
    · by_cases c2 : o.timeLayout = []
      · simp only [c1, c2, if_true, if_false] at h; cases h
        exact .inr (.inl ⟨rfl, c1, c2⟩)
      · by_cases c3 : 0 ≤ o.durationFmt ∧ o.durationFmt ≤ 5
        · simp [c1, c2, c3.1, c3.2] at h
        · have : (decide (o.durationFmt ≥ 0) && decide (o.durationFmt ≤ 5)) = false := by simpa using c3
          simp only [c1, c2, this] at h; cases h
          exact .inr (.inr ⟨rfl, c1, c2, c3⟩)
  · cases h

/-! ## Duration formats -/

/-- C54: every duration format has a name; that of an unknown one is "unknown". -/
theorem C54_duration_name (f : Int) : ∃ s, durationFmtString f = some s ∧ (s = b! "unknown" ↔ ¬ (0 ≤ f ∧ f ≤ 5)) := by
  unfold durationFmtString durationFmtValid
  by_cases h : 0 ≤ f ∧ f ≤ 5
  · obtain ⟨k, hk⟩ : ∃ k : Nat, f = k := ⟨f.toNat, by omega⟩
    subst hk
    have : k = 0 ∨ k = 1 ∨ k = 2 ∨ k = 3 ∨ k = 4 ∨ k = 5 := by omega
    rcases this with rfl | rfl | rfl | rfl | rfl | rfl <;> exact ⟨_, rfl, by decide⟩
  · have : (decide (f ≥ 0) && decide (f ≤ 5)) = false := by simpa using h
    rw [this]
    exact ⟨_, rfl, by simp [h]⟩

/-- C54: different known formats have different names, and a known one no name of an unknown one. -/
theorem C54_duration_names (f g : Int) (hf : 0 ≤ f ∧ f ≤ 5) (h : durationFmtString f = durationFmtString g) : f = g := by
  obtain ⟨s, h1, h2⟩ := C54_duration_name f
  obtain ⟨s', h1', h2'⟩ := C54_duration_name g
  rw [h1, h1'] at h
  cases h
  have hg : 0 ≤ g ∧ g ≤ 5 := by
    by_cases hg : 0 ≤ g ∧ g ≤ 5
    · exact hg
    · exact absurd hf (h2.mp (h2'.mpr hg))
  obtain ⟨k, rfl⟩ : ∃ k : Nat, f = k := ⟨f.toNat, by omega⟩
  obtain ⟨l, rfl⟩ : ∃ l : Nat, g = l := ⟨g.toNat, by omega⟩
  have hk : k = 0 ∨ k = 1 ∨ k = 2 ∨ k = 3 ∨ k = 4 ∨ k = 5 := by omega
  have hl : l = 0 ∨ l = 1 ∨ l = 2 ∨ l = 3 ∨ l = 4 ∨ l = 5 := by omega
  rw [← h1'] at h1
  rcases hk with rfl | rfl | rfl | rfl | rfl | rfl <;> rcases hl with rfl | rfl | rfl | rfl | rfl | rfl <;>
    first | rfl | exact absurd h1 (by decide)

/-! ## Examples -/

/-- Names for the examples. -/
def shopTexts : Texts where
  typ t := if t = 22 then b! "shop.Loud" else if t = 36 then b! "[]chan int" else b! "shop.T"
  quote s := b! "\"" ++ s ++ b! "\""
  user id := if id = 3 then b! "out of order" else b! "?"

theorem shopTexts_colon (t : TId) : c! ':' ∉ shopTexts.typ t := by
  simp only [shopTexts]
  split
  · decide
  · split <;> decide

theorem blame_error : marshalOpts shopW (shopH blameCells) 9 (some (32, 100)) [] = .ret none (some (.encoding (.marshaler 22 .json (.user 3)))) := by
  decide +kernel

theorem blame_holds : ReprE shopW.E (shopH blameCells).mem (some (32, 100)) (.iface 32 blameV) := shop_holds 8 (by decide +kernel)

/-- The hypotheses of `C54_message`. -/
example : ∃ t' ca' v', Encodes shopW defaultEncOpts 32 false blameV t' ca' v' ∧
    Blames shopW shopTexts.typ shopTexts.quote shopTexts.user (univM shopMeth) defaultEncOpts
      (b! "json: error calling MarshalJSON for type shop.Loud: out of order") t' ca' v' :=
  C54_message (opts := []) (shop_faults blameCells) shopTexts blame_holds rfl 9 [] (.inl ⟨none, blame_error⟩)

/-- The hypotheses of `C54_unwrap`. -/
example : ∃ t' ca' v' m rt x u path, Encodes shopW defaultEncOpts 32 false blameV t' ca' v' ∧ Picks shopW.E t' ca' m ∧
    Receives shopW.E shopW.ptrTo t' m v' rt x u ∧ univM shopMeth path m (argCtx defaultEncOpts m) rt x [] = .err 3 :=
  C54_unwrap (opts := []) (shop_faults blameCells) blame_holds rfl 9 [] (.inl ⟨none, blame_error⟩) rfl

/-- A `map[int]interface{}` with minus infinity, and one with NaN. -/
def nanCells : List (Addr × Cell) :=
  [(100, .hmap [(110, 120)]), (110, .int (.int 1)), (120, .eface (some (14, 130))), (130, .float .f64 0xFFF0000000000000),
   (200, .hmap [(210, 220)]), (210, .int (.int 2)), (220, .eface (some (14, 230))), (230, .float .f64 0x7FF8000000000001)]

theorem nan_holds : ReprE shopW.E (shopH nanCells).mem (some (32, 100))
    (.iface 32 (.map [(.int (.int 1), .iface 14 (.float .f64 0xFFF0000000000000))])) := shop_holds 8 (by decide +kernel)

/-- The NaN. -/
example : ReprE shopW.E (shopH nanCells).mem (some (32, 200))
    (.iface 32 (.map [(.int (.int 2), .iface 14 (.float .f64 0x7FF8000000000001))])) := shop_holds 8 (by decide +kernel)

theorem nan_issued : Issued shopW (shopH nanCells) (.encoding (.unsupportedValue .f64 0xFFF0000000000000)) :=
  ⟨32, 100, _, 9, [], [], nan_holds, .inl ⟨none, by decide +kernel⟩⟩

/-- The hypotheses of `C54_distinct`, and of `C54_unwrap_none`: minus infinity. -/
example (e : ApiErr) (h : Issued shopW (shopH nanCells) e) (he : e.text shopTexts = b! "json: unsupported value: -Inf") :
    SameCause shopTexts.typ shopTexts.user (.encoding (.unsupportedValue .f64 0xFFF0000000000000)) e :=
  C54_distinct (shop_faults nanCells) shopTexts (fun s s' h => by simpa [shopTexts] using h)
    shopTexts_colon nan_issued h (he ▸ by decide +kernel)

example : ∃ t' ca' v' e', ApiErr.encoding (.unsupportedValue .f64 0xFFF0000000000000) = .encoding e' ∧
    Encodes shopW defaultEncOpts 32 false (.map [(.int (.int 1), .iface 14 (.float .f64 0xFFF0000000000000))]) t' ca' v' ∧
    Fault shopW (univM shopMeth) defaultEncOpts t' ca' v' e' ∧ (ByKind shopW.E t' ca' ∨ (shopW.E t').special ≠ none) :=
  C54_unwrap_none (opts := []) (shop_faults nanCells) nan_holds rfl 9 [] (.inl ⟨none, by decide +kernel⟩) rfl

/-- And NaN. -/
example : marshalOpts shopW (shopH nanCells) 9 (some (32, 200)) [] = .ret none (some (.encoding (.unsupportedValue .f64 0x7FF8000000000001))) ∧
    (ApiErr.encoding (.unsupportedValue .f64 0x7FF8000000000001)).text shopTexts = b! "json: unsupported value: NaN" := by decide +kernel

/-- The hypothesis of `C54_option`. -/
example : prepare [some (.timeLayout []), some (.durationFormat 9)] = .error .emptyLayout := rfl

end Jettison.Props
