import Verif.Props.WritesEx
import Verif.Props.Faults

/-!
# C56: the text is what a call returns

`Writes` (Spec/Writes) is complete: a value that it gives a text for is encoded without error. So
a call returns a text without error if and only if it is the one described.
-/

namespace Jettison.Props
open Jettison Jettison.Model Jettison.Spec Jettison.Proofs

variable {W : World} {M : MethV} {o : EncOpts} {t : TId} {ca q : Bool} {v : Val} {b : Bytes}

/-! ## A value that has a text is not at fault -/

theorem w_number_ok (hs : (W.E t).special = some .number) (hv : bmHas o.flags .noNumberValidation = false) {s : Bytes}
    (h : Writes W M o t ca q (.str s) b) : s = [] ∨ IsNumber s := by
  generalize hg : Val.str s = v at h
  cases h with
  | number0 => cases hg; exact .inl rfl
  | number _ _ h => cases hg; exact .inr (h hv)
  | _ => specialRest

theorem floatText_finite {fmt : FloatFmt} {w : FWidth} {x : Nat} (h : FloatText fmt w x b) : IsFinite w x := by
  cases h <;> assumption

theorem methText_call {rt : TId} {x : Val} {m : MethKind} (h : MethText M o rt x m b) : ∃ path d, M path m (argCtx o m) rt x [] = .ok d := by
  cases h with
  | ctx h => exact ⟨_, _, h⟩
  | app h => exact ⟨_, _, h⟩
  | json h => exact ⟨_, _, h⟩
  | text h => exact ⟨_, _, h⟩

theorem w_called {m : MethKind} {rt u : TId} {x : Val} (hs : (W.E t).special = none) (hp : Picks W.E t ca m)
    (hr : Receives W.E W.ptrTo t m v rt x u) (h : Writes W M o t ca q v b) : MethText M o rt x m b := by
  rcases w_meth hs hp h with ⟨rfl, -, g1, g2⟩ | ⟨rt', x', u', g1, g2⟩
  · exfalso
    cases hr with
    | own _ n1 n2 => exact g2.elim (fun h => n2 h rfl) n1
    | addr n1 => exact n1 g1
  · obtain ⟨rfl, rfl, -⟩ := receives_unique hr g1
    exact g2

theorem short_writes (hP : PathFree M) (hf : ∀ x, v = .time x → -9223372036854775808 ≤ x.unix ∧ x.unix < 9223372036854775808)
    (hk : ShortKey W M o t ca v) (h : Writes W M o t ca q v b) : b.length < 2 := by
  cases hk with
  | @time x _ hs hu _ h0 h9 =>
    obtain ⟨x', e, -, ht⟩ := w_time hs h
    cases e
    have hr := hf _ rfl
    rw [Int64.toInt_ofInt_of_le (by simpa using hr.1) (by simpa using hr.2)] at h0 h9
    cases ht with
    | unix _ h1 => exact (intLiteral_short h1).mpr ⟨h0, h9⟩
    | rfc3339 h2 | nano h2 | layout h2 => rw [hu] at h2; cases h2
  | append _ hs hp hm hr hM hl =>
    have := w_called hs hp hr h
    cases this with
    | ctx h1 => cases h1.symm.trans ((hP _ _ _ _ _ _ _).trans hM); exact hl
    | app h1 => cases h1.symm.trans ((hP _ _ _ _ _ _ _).trans hM); exact hl
    | _ => rcases hm with h | h <;> cases h
  | verbatim _ hs hp hr hM hn hl =>
    have := w_called hs hp hr h
    cases this with
    | json h1 _ h2 =>
      rw [hP _ _, hM] at h1; cases h1
      cases h2 with
      | verbatim => exact hl
      | compact h3 => rw [hn] at h3; cases h3
  | json _ hs hp hr hM hn hj hl =>
    have := w_called hs hp hr h
    cases this with
    | json h1 _ h2 =>
      rw [hP _ _, hM] at h1; cases h1
      cases h2 with
      | verbatim h3 => rw [hn] at h3; cases h3
      | compact _ h3 =>
        obtain ⟨r, h4, h5⟩ := appendCompactJSON_squeezed (!bmHas o.flags .noHTMLEscaping) _
        rw [squeezed_unique h3 h4]
        obtain ⟨out, h6, h7⟩ := C14_compact_value [] _ (!bmHas o.flags .noHTMLEscaping) _ hj
        rw [h5] at h6
        cases h6
        rw [(compact_num h7).1]
        exact hl

theorem key_long {ms ms' : List (Bytes × Bytes)} (ho : InOrder o ms ms') (hu : bmHas o.flags .unsortedMap = false) {i : Nat} {m : Bytes × Bytes}
    (h : ms[i]? = some m) : 2 ≤ m.1.length :=
  (ho.2 hu).2 m (ho.1.mem_iff.mpr (List.mem_of_getElem? h))

/-- A value with a text is no reason for an error or a panic. -/
theorem writes_fine (hP : PathFree M) (hf : TimesFine W t v) (h : Writes W M o t ca q v b) :
    (∀ e, ¬ Fault W M o t ca v e) ∧ ¬ Trap W M o t ca v := by
  constructor
  · intro e hF
    cases hF with
    | @float w x hb hk hn =>
      have hbk : isBasicK (W.E t).kind = true := by rw [hk]; rfl
      have key : ∀ {b}, Writes W M o t ca false (.float w x) b → False := by
        intro b h
        rcases w_scalar hb hbk h with ⟨x, e, -⟩ | ⟨x, e, -⟩ | ⟨w, x, e, h1⟩ | ⟨s, c, e, -⟩ <;> cases e
        exact hn (floatText_finite h1)
      cases q with
      | false => exact key h
      | true =>
        rcases w_quoted hb hbk h with ⟨-, c, h1, -⟩ | ⟨h1, -⟩
        · exact key h1
        · rw [hk] at h1; cases h1
    | seconds hs hd hn =>
      obtain ⟨d, e, h1⟩ := w_duration hs h
      cases e
      cases h1 with
      | sec _ h1 => exact hn (floatText_finite h1)
      | str h0 | neg h0 | ns h0 | us h0 | ms h0 | min h0 => rw [hd] at h0; cases h0
    | minutes hs hd hn =>
      obtain ⟨d, e, h1⟩ := w_duration hs h
      cases e
      cases h1 with
      | min _ h1 => exact hn (floatText_finite h1)
      | str h0 | neg h0 | ns h0 | us h0 | ms h0 | sec h0 => rw [hd] at h0; cases h0
    | number hs hv hne hn => exact (w_number_ok hs hv h).elim hne hn
    | time hs hn =>
      obtain ⟨x, e, h1, -⟩ := w_time hs h
      cases e
      exact hn h1
    | typ hb hk =>
      rcases hk with hk | ⟨k, e, hk, hn⟩
      · exact w_kind hb h hk
      · have := w_tag hb (by simp [hk, isBasicK, isInteger]) (by simp [hk]) h
        subst this
        exact hn (w_map hb hk h).1
    | method hs hp hr hM =>
      obtain ⟨path, d, h1⟩ := methText_call (w_called hs hp hr h)
      rw [hP _ _, hM] at h1; cases h1
    | malformed hs hp hr hM hn hj =>
      cases w_called hs hp hr h with
      | json h1 h2 =>
        rw [hP _ _, hM] at h1; cases h1
        obtain ⟨j, h3⟩ := h2 hn
        exact hj j h3
    | nilKey hs hm hk =>
      obtain ⟨kvs, ms, ms', e, -, h1, h2, -⟩ := w_smap hs h
      cases e
      obtain ⟨i, hi⟩ := List.mem_iff_getElem?.mp hm
      obtain ⟨m, hm'⟩ : ∃ m, ms[i]? = some m := ⟨ms[i]'(by rw [h1]; exact (List.getElem?_eq_some_iff.mp hi).1), List.getElem?_eq_getElem _⟩
      have := h2 i _ _ hi hm'
      rw [hk] at this
      cases this
    | badKey hs hm hk hn =>
      obtain ⟨kvs, ms, ms', e, -, h1, h2, -⟩ := w_smap hs h
      cases e
      obtain ⟨i, hi⟩ := List.mem_iff_getElem?.mp hm
      obtain ⟨m, hm'⟩ : ∃ m, ms[i]? = some m := ⟨ms[i]'(by rw [h1]; exact (List.getElem?_eq_some_iff.mp hi).1), List.getElem?_eq_getElem _⟩
      have := h2 i _ _ hi hm'
      rw [hk] at this
      generalize m.1 = z at this
      cases this with
      | str h => exact hn (.inl h)
      | text _ h => exact hn (.inr (.inr h))
      | quoted h => exact hn (.inr (.inl ⟨_, h⟩))
  · intro hT
    cases hT with
    | nilElem hs hm hk =>
      obtain ⟨kvs, ms, ms', e, -, h1, h2, h3, h4, -⟩ := w_smap hs h
      cases e
      exact h4 _ hm hk
    | method hs hp hr hM =>
      obtain ⟨path, d, h1⟩ := methText_call (w_called hs hp hr h)
      rw [hP _ _, hM] at h1; cases h1
    | @key k e kvs kv hb hk hns hu hm hsk =>
      have := w_tag hb (by simp [hk, isBasicK, isInteger]) (by simp [hk]) h
      subst this
      rcases (w_map hb hk h).2 with ⟨e, -⟩ | ⟨kvs', ms, ms', e, -, h1, h2, h3, h5⟩
      · cases e
      cases e
      obtain ⟨i, hi⟩ := List.mem_iff_getElem?.mp hm
      obtain ⟨m, hm'⟩ : ∃ m, ms[i]? = some m := ⟨ms[i]'(by rw [h1]; exact (List.getElem?_eq_some_iff.mp hi).1), List.getElem?_eq_getElem _⟩
      have hlong := key_long h5 hu hm'
      have hw := h2 i _ _ hi hm'
      have hti : ∀ x, kv.1 = .time x → -9223372036854775808 ≤ x.unix ∧ x.unix < 9223372036854775808 := by
        intro x hx
        exact (hf k x (by rw [← hx]; exact .step .refl (.key hk hm))).1
      have ht := short_text hsk
      generalize m.1 = z at hw hlong
      generalize kv.1 = y at hw hsk hti
      cases hw with
      | str h => exact hns h
      | nilText _ _ hpt =>
        have nope : ∀ {m rt x u}, Picks W.E k false m → ¬ Receives W.E W.ptrTo k m .nil rt x u := by
          intro m rt x u hp hr
          rcases hp.1 with h' | ⟨h', -⟩
          · exact (receives_nil h' (.inl hpt) hr).elim
          · cases h'
        cases hsk with
        | append _ _ hp _ hr => exact nope hp hr
        | verbatim _ _ hp hr => exact nope hp hr
        | json _ _ hp hr => exact nope hp hr
      | text _ _ _ h => have := short_writes hP hti hsk h; omega
      | quoted _ h => rw [ht] at h; cases h
    | @skey kvs kv d x hs hu hm hk hns hsk =>
      obtain ⟨kvs, ms, ms', e, -, h1, h2, h3, h4, h5⟩ := w_smap hs h
      cases e
      obtain ⟨i, hi⟩ := List.mem_iff_getElem?.mp hm
      obtain ⟨m, hm'⟩ : ∃ m, ms[i]? = some m := ⟨ms[i]'(by rw [h1]; exact (List.getElem?_eq_some_iff.mp hi).1), List.getElem?_eq_getElem _⟩
      have hlong := key_long h5 hu hm'
      have hw := h2 i _ _ hi hm'
      have hti : ∀ y, x = .time y → -9223372036854775808 ≤ y.unix ∧ y.unix < 9223372036854775808 := by
        rintro y rfl
        exact (hf d y (.step .refl (.skey hm hk))).1
      have ht := short_text hsk
      rw [hk] at hw
      generalize m.1 = z at hw hlong
      cases hw with
      | str h => exact hns h
      | text _ _ h => have := short_writes hP hti hsk h; omega
      | quoted _ h => rw [ht] at h; cases h

theorem at_index {α β : Type} {l : List α} {r : List β} (hl : r.length = l.length) {x : α} (hx : x ∈ l) : ∃ (i : Nat) (y : β), l[i]? = some x ∧ r[i]? = some y := by
  obtain ⟨i, hi⟩ := List.mem_iff_getElem?.mp hx
  exact ⟨i, r[i]'(by rw [hl]; exact (List.getElem?_eq_some_iff.mp hi).1), hi, List.getElem?_eq_getElem _⟩

/-- What is encoded with a value that has a text has a text. -/
theorem writes_part {t' : TId} {ca' : Bool} {v' : Val} (h : Writes W M o t ca q v b) (he : Encodes1 W o t ca v t' ca' v') :
    ∃ q' b', Writes W M o t' ca' q' v' b' := by
  have nq : ByKind W.E t ca → ¬ isBasicK (W.E t).kind = true → (∀ e, (W.E t).kind ≠ .ptr e) → q = false := fun hb hk hp => w_tag hb hk hp h
  cases he with
  | ptr hb hk =>
    rcases w_ptr hb hk h with ⟨e, -⟩ | ⟨x, e, h1⟩ <;> cases e
    exact ⟨_, _, h1⟩
  | iface hb hk =>
    cases nq hb (by simp [hk, isBasicK, isInteger]) (by simp [hk])
    rcases w_iface hb hk h with ⟨e, -⟩ | ⟨d, x, e, h1⟩ <;> cases e
    exact ⟨_, _, h1⟩
  | slice hb hk hn hm =>
    cases nq hb (by simp [hk, isBasicK, isInteger]) (by simp [hk])
    rcases w_slice hb hk hn h with ⟨e, -⟩ | ⟨vs, bs, e, -, h1, h2⟩ <;> cases e
    obtain ⟨i, y, hi, hj⟩ := at_index h1 hm
    exact ⟨_, _, h2 i _ _ hi hj⟩
  | array hb hk hn hm =>
    cases nq hb (by simp [hk, isBasicK, isInteger]) (by simp [hk])
    rcases w_array hb hk h with ⟨vs, x, c, e, -, g1, g2, -⟩ | ⟨vs, bs, e, -, -, h1, h2⟩ <;> cases e
    · exact absurd ⟨g1, g2⟩ hn
    · obtain ⟨i, y, hi, hj⟩ := at_index h1 hm
      exact ⟨_, _, h2 i _ _ hi hj⟩
  | @key k e kvs kv hb hk hkt hns hnil hm =>
    cases nq hb (by simp [hk, isBasicK, isInteger]) (by simp [hk])
    rcases (w_map hb hk h).2 with ⟨e, -⟩ | ⟨kvs', ms, ms', e, -, h1, h2, h3, h5⟩ <;> cases e
    obtain ⟨i, y, hi, hj⟩ := at_index h1 hm
    have hw := h2 i _ _ hi hj
    generalize y.1 = z at hw
    generalize kv.1 = x at hw hnil
    cases hw with
    | str h => exact absurd h hns
    | nilText _ h1 h2 => exact absurd rfl (hnil h1 h2)
    | text _ _ _ h => exact ⟨_, _, h⟩
    | quoted _ _ h => exact ⟨_, _, h⟩
  | elem hb hk hkt hm =>
    cases nq hb (by simp [hk, isBasicK, isInteger]) (by simp [hk])
    rcases (w_map hb hk h).2 with ⟨e, -⟩ | ⟨kvs', ms, ms', e, -, h1, h2, h3, h5⟩ <;> cases e
    obtain ⟨i, y, hi, hj⟩ := at_index h1 hm
    exact ⟨_, _, h3 i _ _ hi hj⟩
  | @field _ m x hb hs hc hno hat =>
    have hs0 := hs
    obtain ⟨fs, hk⟩ := hs0
    replace hk : (W.E t).kind = .struct fs := hk
    cases nq hb (by simp [hk, isBasicK, isInteger]) (by simp [hk])
    obtain ⟨l, tried, kept, q', x', c, key, lead, a1, a2, a3, a4, a5, a6, -⟩ := w_struct hb hs h
    have hin := (a3 m ((a1.2 m).mpr hc)).mpr hno
    have := fieldAt_unique hat (a4 m hin)
    subst this
    exact ⟨_, _, a6 m hin⟩
  | @skey kvs kv d x hs hm hk hkt hns =>
    obtain ⟨kvs, ms, ms', e, -, h1, h2, h3, h4, h5⟩ := w_smap hs h
    cases e
    obtain ⟨i, y, hi, hj⟩ := at_index h1 hm
    have hw := h2 i _ _ hi hj
    rw [hk] at hw
    generalize y.1 = z at hw
    cases hw with
    | str h => exact absurd h hns
    | text _ _ h => exact ⟨_, _, h⟩
    | quoted _ _ h => exact ⟨_, _, h⟩
  | selem hs hm hk =>
    obtain ⟨kvs, ms, ms', e, -, h1, h2, h3, h4, h5⟩ := w_smap hs h
    cases e
    obtain ⟨i, y, hi, hj⟩ := at_index h1 hm
    exact ⟨_, _, h3 i _ _ _ _ hi hj hk⟩

/-- Nothing that is encoded with a value that has a text is at fault. -/
theorem writes_clean (G : GoTypes W.E W.ptrTo) (hP : PathFree M) {t' : TId} {ca' : Bool} {v' : Val} (he : Encodes W o t ca v t' ca' v') :
    HasType W.E t v → TimesFine W t v → ∀ {q b}, Writes W M o t ca q v b → (∀ e, ¬ Fault W M o t' ca' v' e) ∧ ¬ Trap W M o t' ca' v' := by
  induction he with
  | refl => exact fun _ hf _ _ h => writes_fine hP hf h
  | step h1 _ ih =>
    intro ht hf q b h
    obtain ⟨a1, a2⟩ := encodes1_within G ht h1
    obtain ⟨q', b', h'⟩ := writes_part h h1
    exact ih a1 (fun t'' x hw => hf t'' x (within_trans a2 hw)) h'

/-- C56: the description is complete. If it gives a text for a value, a call that ends succeeds; if
maps are sorted and the texts of the keys of a map differ, with this text. -/
theorem C56_complete {H : Heap} (D : FaultReady W H M) (DW : WriteReady W H M) (hP : PathFree M) {w : Addr}
    (hx : ReprE W.E H.mem (some (t, w)) (.iface t v)) (hf : TimesFine W t v) {opts : List (Option Opt)} (ho : prepare opts = .ok o)
    (h : Writes W M o t (isPtrK (W.E t).kind) false v b) (n : Nat) (dst : Bytes) (hn : marshalOpts W H n (some (t, w)) opts ≠ .nofuel) :
    (∃ c, marshalOpts W H n (some (t, w)) opts = .ret (some c) none ∧ appendOpts W H n dst (some (t, w)) opts = .ret (some (dst ++ c)) none) ∧
    (bmHas o.flags .unsortedMap = false → KeysTold W M o t v →
      marshalOpts W H n (some (t, w)) opts = .ret (some b) none ∧ appendOpts W H n dst (some (t, w)) opts = .ret (some (dst ++ b)) none) := by
  have ht : HasType W.E t v := by
    cases repr_inIface hx with
    | val h => exact h
  have hs := C51_success D hx ho n dst hn fun t' ca' v' he => writes_clean D.ready.types hP he ht hf h
  refine ⟨hs, fun hu hd => ?_⟩
  obtain ⟨c, h1, h2⟩ := hs
  have := C56_unique D.ready.types hP hu ht hd h ((C56_bytes DW hx hf ho).1 c h1)
  subst this
  exact ⟨h1, h2⟩

/-- C56 on finite types and data, where the call ends (C33): it returns a text without error if and
only if the text is the one described. -/
theorem C56_iff {g n : Nat} {S : List TId} {c : Call} (hc : FiniteCall W g n c S M) (D : FaultReady (c.world W) c.heap M) (DW : WriteReady (c.world W) c.heap M)
    (hP : PathFree M) {w : Addr} (hv : c.value = some (t, w)) (hx : ReprE W.E c.heap.mem (some (t, w)) (.iface t v)) {opts : List (Option Opt)}
    (ho : prepare opts = .ok o) (hf : TimesFine (c.world W) t v) (hu : bmHas o.flags .unsortedMap = false) (hd : KeysTold (c.world W) M o t v) :
    marshalOpts (c.world W) c.heap n (some (t, w)) opts = .ret (some b) none ↔ Writes (c.world W) M o t (isPtrK (W.E t).kind) false v b := by
  refine ⟨fun h => (C56_bytes DW hx hf ho).1 b h, fun h => ((C56_complete D DW hP hx hf ho h n [] ?_).2 hu hd).1⟩
  simp only [marshalOpts, ho, marshalJSON]
  have := appendJSON_ends hc hv o [] []
  generalize appendJSON (c.world W) (run (c.world W) c.heap o n) [] (some (t, w)) [] = r at this
  cases r with
  | nofuel => exact absurd rfl this
  | _ => simp [marshalRet]

/-! ## Examples -/

/-- The hypotheses of `C56_complete`. -/
example : marshalOpts shopW (shopH mapCells) 9 (some (32, 100)) [] = .ret (some (b! "{\"10\":{\"a\":1,\"b\":2},\"7\":{\"a\":1,\"b\":2}}")) none :=
  ((C56_complete (opts := []) (shop_faults mapCells) (shop_writes mapCells) shop_pathFree outer_holds (timesB_fine (n := 6) (by decide +kernel)) rfl
    ((outer_exact _).mpr rfl) 9 [] (by decide +kernel)).2 rfl (keysDiffer_plain outer_plain).told).1

theorem ring_keys : KeysDiffer (ringB.world shopW) (univM shopMeth) defaultEncOpts 129 ringV := by
  have key : ∀ t' v', Within shopW.E 129 ringV t' v' → (match v' with | .map _ | .smap _ => false | _ => true) = true :=
    fun _ _ h => allParts_within (n := 6) (P := fun _ v' => match v' with | .map _ | .smap _ => false | _ => true) (by decide +kernel) h
  exact ⟨fun _ _ _ _ h _ => absurd (key _ _ h) (by simp), fun _ _ h => absurd (key _ _ h) (by simp)⟩

/-- The hypotheses of `C56_iff`. -/
example (b : Bytes) : marshalOpts (ringB.world shopW) ringB.heap 200 (some (129, 500)) [] = .ret (some b) none ↔
    Writes (ringB.world shopW) (univM shopMeth) defaultEncOpts 129 true false ringV b :=
  C56_iff (opts := []) ringB_finite (shop_faults ringCells) (shop_writes ringCells) shop_pathFree (w := 500) rfl ringV_holds rfl
    (timesB_fine (n := 6) (by decide +kernel)) rfl ring_keys.told

end Jettison.Props
