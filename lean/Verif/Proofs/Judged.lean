import Verif.Props.Document
import Verif.Proofs.Faults

/-! # Outcomes and their causes -/

namespace Jettison.Proofs
open Jettison Jettison.Spec Jettison.Model Jettison.Props

variable {W : World} {H : Heap} {M : MethV} {o : EncOpts} {t t' : TId} {ca ca' : Bool} {v v' : Val} {r r' : Res}

/-- Nothing that is encoded is at fault. -/
def Clean (W : World) (M : MethV) (o : EncOpts) (t : TId) (ca : Bool) (v : Val) : Prop :=
  ∀ t' ca' v', Encodes W o t ca v t' ca' v' → (∀ e, ¬ Fault W M o t' ca' v' e) ∧ ¬ Trap W M o t' ca' v'

/-- The outcome has its cause in the value. -/
structure Judged (W : World) (M : MethV) (o : EncOpts) (t : TId) (ca : Bool) (v : Val) (r : Res) : Prop where
  ok : ∀ b, r = .ok b → PathFree M → Clean W M o t ca v
  fail : ∀ e b, r = .fail e b → ∃ t' ca' v', Encodes W o t ca v t' ca' v' ∧ Fault W M o t' ca' v' e
  panic : r = .panic → ∃ t' ca' v', Encodes W o t ca v t' ca' v' ∧ Trap W M o t' ca' v'

theorem judged_ok {b : Bytes} (h : PathFree M → (∀ e, ¬ Fault W M o t ca v e) ∧ ¬ Trap W M o t ca v ∧
    ∀ t' ca' v', Encodes1 W o t ca v t' ca' v' → Clean W M o t' ca' v') : Judged W M o t ca v (.ok b) where
  ok b' _ hp t' ca' v' he := by
    obtain ⟨h1, h2, h3⟩ := h hp
    cases he with
    | refl => exact ⟨h1, h2⟩
    | step s he => exact h3 _ _ _ s _ _ _ he
  fail e b h := by cases h
  panic h := by cases h

theorem judged_fault {e : Err} {b : Bytes} (h : Fault W M o t ca v e) : Judged W M o t ca v (.fail e b) where
  ok b h := by cases h
  fail e' b' h' := by cases h'; exact ⟨_, _, _, .refl, h⟩
  panic h := by cases h

theorem judged_trap (h : Trap W M o t ca v) : Judged W M o t ca v .panic where
  ok b h := by cases h
  fail e' b' h' := by cases h'
  panic _ := ⟨_, _, _, .refl, h⟩

theorem judged_stop (hE : Encodes1 W o t ca v t' ca' v') (hJ : Judged W M o t' ca' v' r) (hs : Stops r r') : Judged W M o t ca v r' where
  ok b h := by subst h; cases hs
  fail e b h := by
    subst h; cases hs
    obtain ⟨a1, a2, a3, h1, h2⟩ := hJ.fail e _ rfl
    exact ⟨a1, a2, a3, .step hE h1, h2⟩
  panic h := by
    subst h; cases hs
    obtain ⟨a1, a2, a3, h1, h2⟩ := hJ.panic rfl
    exact ⟨a1, a2, a3, .step hE h1, h2⟩

theorem judged_nofuel : Judged W M o t ca v .nofuel where
  ok b h := by cases h
  fail e' b' h' := by cases h'
  panic h := by cases h

theorem judged_bad : Judged W M o t ca v .bad where
  ok b h := by cases h
  fail e' b' h' := by cases h'
  panic h := by cases h

/-- The outcome of another step that changes only the text. -/
theorem judged_like (hJ : Judged W M o t ca v r) (h : (∃ b b', r = .ok b ∧ r' = .ok b') ∨ Stops r r') : Judged W M o t ca v r' where
  ok b hb hp := by
    rcases h with ⟨a, -, h, -⟩ | h
    · exact hJ.ok a h hp
    · subst hb; cases h
  fail e b hb := by
    rcases h with ⟨-, a, -, h⟩ | h
    · rw [h] at hb; cases hb
    · subst hb; cases h; exact hJ.fail e _ rfl
  panic hb := by
    rcases h with ⟨-, a, -, h⟩ | h
    · rw [h] at hb; cases hb
    · subst hb; cases h; exact hJ.panic rfl

theorem stops_ok {r : Res} {b : Bytes} (h : Stops r (.ok b)) : False := by cases h

/-! ## Whose faults -/

theorem fault_byKind {e : Err} (hb : ByKind W.E t ca) (h : Fault W M o t ca v e) :
    (∃ w b, (W.E t).kind = .float w ∧ v = .float w b ∧ ¬ IsFinite w b) ∨
      ((W.E t).kind = .other ∨ ∃ k e, (W.E t).kind = .map k e ∧ ¬ KeyType W.E k) := by
  have hs := hb.special
  cases h with
  | float _ hk h => exact .inl ⟨_, _, hk, rfl, h⟩
  | typ _ h => exact .inr h
  | method _ hp => exact absurd hb (picks_byKind hp)
  | malformed _ hp => exact absurd hb (picks_byKind hp)
  | _ => simp_all

theorem trap_byKind (hb : ByKind W.E t ca) (h : Trap W M o t ca v) :
    ∃ k e kvs kv, (W.E t).kind = .map k e ∧ v = .map kvs ∧ kv ∈ kvs ∧ (W.E k).kind ≠ .string ∧ bmHas o.flags .unsortedMap = false ∧
      ShortKey W M o k false kv.1 := by
  have hs := hb.special
  cases h with
  | key _ h1 h2 h3 h4 h5 => exact ⟨_, _, _, _, h1, rfl, h4, h2, h3, h5⟩
  | method _ hp => exact absurd hb (picks_byKind hp)
  | _ => simp_all

theorem encodes1_kind (h : Encodes1 W o t ca v t' ca' v') : ByKind W.E t ca ∨ (W.E t).special = some .syncMap := by
  cases h <;> first | exact .inl ‹_› | exact .inr ‹_›

theorem trap_kind (hs : (W.E t).special ≠ none) (h : Trap W M o t ca v) : ByKind W.E t ca ∨ (W.E t).special = some .syncMap := by
  cases h with
  | method h => exact absurd h hs
  | nilElem h => exact .inr h
  | skey h => exact .inr h
  | key h => exact .inl h

/-! ## Methods -/

theorem receives_or_nil (G : GoTypes W.E W.ptrTo) (hv : HasType W.E t v) {m : MethKind} (hp : Picks W.E t ca m) :
    (v = .nil ∧ MethSet.Has (W.E t).meths m ∧ (IsPtr W.E t ∨ IsIface W.E t)) ∨ ∃ rt x u, Receives W.E W.ptrTo t m v rt x u := by
  by_cases hh : MethSet.Has (W.E t).meths m
  · by_cases hif : IsIface W.E t
    · obtain ⟨k, hk⟩ := hif
      rcases has_iface G hk hv with rfl | ⟨d, x, rfl, hx⟩
      · exact .inl ⟨rfl, hh, .inr ⟨k, hk⟩⟩
      · exact .inr ⟨_, _, _, .dyn hh ⟨k, hk⟩⟩
    · by_cases hpt : IsPtr W.E t
      · obtain ⟨e, he⟩ := hpt
        rcases has_ptr G he hv with rfl | ⟨x, rfl, -⟩
        · exact .inl ⟨rfl, hh, .inl ⟨e, he⟩⟩
        · exact .inr ⟨_, _, _, .own hh hif (by simp)⟩
      · exact .inr ⟨_, _, _, .own hh hif fun h => absurd h hpt⟩
  · rcases hp.1 with h' | ⟨-, -, h'⟩
    · exact absurd h' hh
    · exact .inr ⟨_, _, _, .addr hh h'⟩

theorem receives_unique {m : MethKind} {rt rt' u u' : TId} {x x' : Val} (h : Receives W.E W.ptrTo t m v rt x u)
    (h' : Receives W.E W.ptrTo t m v rt' x' u') : rt = rt' ∧ x = x' ∧ u = u' := by
  cases h with
  | own h1 h2 h3 =>
    cases h' with
    | own => exact ⟨rfl, rfl, rfl⟩
    | dyn _ h => exact absurd h h2
    | addr h => exact absurd h1 h
  | dyn h1 h2 =>
    cases h' with
    | own _ h => exact absurd h2 h
    | dyn => exact ⟨rfl, rfl, rfl⟩
    | addr h => exact absurd h1 h
  | addr h1 h2 =>
    cases h' with
    | own h => exact absurd h h1
    | dyn h => exact absurd h h1
    | addr => exact ⟨rfl, rfl, rfl⟩

theorem receives_nil {m : MethKind} {rt u : TId} {x : Val} (hh : MethSet.Has (W.E t).meths m) (hp : IsPtr W.E t ∨ IsIface W.E t)
    (h : Receives W.E W.ptrTo t m .nil rt x u) : False := by
  cases h with
  | own _ h1 h2 => exact hp.elim (fun h => h2 h rfl) h1
  | addr h => exact h hh

theorem receives_nil' {m : MethKind} {rt u : TId} {x : Val} (hP : IsPtr W.E t) (hp : Picks W.E t ca m)
    (h : Receives W.E W.ptrTo t m .nil rt x u) : False := by
  cases h with
  | own _ _ h2 => exact h2 hP rfl
  | addr h =>
    rcases hp.1 with h' | ⟨-, h', -⟩
    · exact h h'
    · exact h' hP

theorem runV_call (G : GoTypes W.E W.ptrTo) {m : MethKind} {rt : TId} {x : Val} {u : TId}
    (hr : Receives W.E W.ptrTo t m v rt x u) (n : Nat) (path : Path) (dst : Bytes) :
    runV W M o (n + 1) path (.marshaler m t (!hasB (W.E t).meths m)) v dst = callMeth W o m u (fun c d => M path m c rt x d) dst := by
  simp only [runV, execV, encodeMarshalerV]
  cases hr with
  | own hh hi hp' =>
    have hb := (hasB_iff _ _).mp hh
    simp only [hb, Bool.not_true, Bool.false_eq_true, if_false, receiverV, ifaceK_none hi, Bool.not_false, Bool.true_and,
      Option.isSome_none, Bool.or_false]
    split
    · next hp =>
      cases v <;> try rfl
      exact absurd rfl (hp' ((isPtr_iff _ _).mpr hp))
    · rfl
  | dyn hh hi =>
    obtain ⟨n, hn⟩ := ifaceK_some hi
    have hb := (hasB_iff _ _).mp hh
    simp [hb, receiverV, hn]
  | addr hh _ =>
    have hk : ifaceK (W.E (W.ptrTo t)).kind = none := by rw [G.ptrTo_kind]; rfl
    have hb : hasB (W.E t).meths m = false := by
      rw [hasB_iff] at hh
      simpa using hh
    simp [hb, receiverV, hk]

theorem runV_meth (G : GoTypes W.E W.ptrTo) (hv : ValidContract W.jsonValid) {m : MethKind} {rt : TId} {x : Val} {u : TId}
    (hr : Receives W.E W.ptrTo t m v rt x u) (n : Nat) (path : Path) (dst : Bytes) :
    Relays o u (fun c d => M path m c rt x d) dst m (runV W M o (n + 1) path (.marshaler m t (!hasB (W.E t).meths m)) v dst) := by
  rw [runV_call G hr]
  exact callMeth_relays hv m u _ dst

theorem runV_methNil {m : MethKind} (hh : MethSet.Has (W.E t).meths m) (hp : IsPtr W.E t ∨ IsIface W.E t) (n : Nat) (path : Path) (dst : Bytes) :
    runV W M o (n + 1) path (.marshaler m t (!hasB (W.E t).meths m)) .nil dst = .ok (dst ++ b! "null") := by
  have hb := (hasB_iff _ _).mp hh
  have hc : (isPtrK (W.E t).kind || (ifaceK (W.E t).kind).isSome) = true := by
    rcases hp with h | h
    · rw [(isPtr_iff _ _).mp h]; rfl
    · obtain ⟨n, hn⟩ := ifaceK_some h; rw [hn]; simp
  simp only [runV, execV, encodeMarshalerV, hb, Bool.not_true, Bool.not_false, Bool.true_and, hc, if_true]

theorem judged_meth (G : GoTypes W.E W.ptrTo) (hvc : ValidContract W.jsonValid) (hs : (W.E t).special = none) {m : MethKind} (hp : Picks W.E t ca m)
    (hv : HasType W.E t v) (n : Nat) (path : Path) :
    Judged W M o t ca v (runV W M o (n + 1) path (.marshaler m t (!hasB (W.E t).meths m)) v []) := by
  have hb : ¬ ByKind W.E t ca := picks_byKind hp
  have hns : (W.E t).special ≠ some .syncMap := by rw [hs]; simp
  have hok : ∀ {b : Bytes}, (PathFree M → (∀ rt x u path, Receives W.E W.ptrTo t m v rt x u → ∃ b, M path m (argCtx o m) rt x [] = .ok b) ∧
      (m = .json → bmHas o.flags .noCompact = false → ∀ rt x u path b, Receives W.E W.ptrTo t .json v rt x u → M path .json none rt x [] = .ok b →
        ∃ j, JsonText j b)) → Judged W M o t ca v (.ok b) := by
    intro b h
    refine judged_ok fun hpf => ⟨fun e he => ?_, fun ht => ?_, fun _ _ _ h1 => ((encodes1_kind h1).elim hb hns).elim⟩
    rotate_left
    · cases ht with
      | method _ hp' hr he =>
        have := picks_unique hp hp'
        subst this
        obtain ⟨b, h1⟩ := (h hpf).1 _ _ _ _ hr
        rw [he] at h1; cases h1
      | nilElem h' => exact hns h'
      | skey h' => exact hns h'
      | key h' => exact hb h'
    obtain ⟨h1, h2⟩ := h hpf
    cases he with
    | method _ hp' hr he =>
      have := picks_unique hp hp'
      subst this
      obtain ⟨b, h1⟩ := h1 _ _ _ _ hr
      rw [he] at h1; cases h1
    | malformed _ hp' hr hM hno hj =>
      have := picks_unique hp hp'
      subst this
      obtain ⟨j, hj'⟩ := h2 rfl hno _ _ _ _ _ hr hM
      exact hj j hj'
    | float hk => exact hb hk
    | typ hk => exact hb hk
    | _ => simp_all
  rcases receives_or_nil G hv hp with ⟨rfl, hh, hpi⟩ | ⟨rt, x, u, hr⟩
  · rw [runV_methNil hh hpi]
    refine hok fun _ => ⟨fun rt x u path hr => (receives_nil hh hpi hr).elim, ?_⟩
    rintro rfl _ rt x u path b hr
    exact (receives_nil hh hpi hr).elim
  · have rel := runV_meth (o := o) (M := M) G hvc hr n path []
    generalize runV W M o (n + 1) path (.marshaler m t (!hasB (W.E t).meths m)) v [] = res at rel
    have one : PathFree M → ∀ {b}, M path m (argCtx o m) rt x [] = .ok b → ∀ rt' x' u' path', Receives W.E W.ptrTo t m v rt' x' u' →
        ∃ b, M path' m (argCtx o m) rt' x' [] = .ok b := by
      intro hpf b hM rt' x' u' path' hr'
      obtain ⟨rfl, rfl, rfl⟩ := receives_unique hr hr'
      exact ⟨b, by rw [hpf path' path, hM]⟩
    cases rel with
    | ctxErr h => exact judged_fault (.method hs hp hr h)
    | appErr h => exact judged_fault (.method hs hp hr h)
    | jsonErr h => exact judged_fault (.method hs hp hr h)
    | textErr h => exact judged_fault (.method hs hp hr h)
    | ctxPanic h => exact judged_trap (.method hs hp hr h)
    | appPanic h => exact judged_trap (.method hs hp hr h)
    | jsonPanic h => exact judged_trap (.method hs hp hr h)
    | textPanic h => exact judged_trap (.method hs hp hr h)
    | malformed h h1 h2 => exact judged_fault (.malformed hs hp hr h h1 h2)
    | ctx h => exact hok fun hpf => ⟨one hpf h, by simp⟩
    | app h => exact hok fun hpf => ⟨one hpf h, by simp⟩
    | text h => exact hok fun hpf => ⟨one hpf h, by simp⟩
    | verbatim h hno => exact hok fun hpf => ⟨one hpf h, by simp [hno]⟩
    | compacted h hno hj =>
      refine hok fun hpf => ⟨one hpf h, fun _ _ rt' x' u' path' b' hr' h' => ?_⟩
      obtain ⟨rfl, rfl, rfl⟩ := receives_unique hr hr'
      rw [hpf path' path] at h'
      rw [h'] at h
      cases h
      exact ⟨_, hj⟩

/-! ## Natively handled types without parts -/

theorem judged_number (hs : (W.E t).special = some .number) {s : Bytes} :
    Judged W M o t ca (.str s) (exceptRes (encodeNumber s [] (bmHas o.flags .noNumberValidation)) (.numberLiteral s) []) := by
  have hb : ¬ ByKind W.E t ca := fun h => by have := h.special; rw [hs] at this; cases this
  have hok : ∀ {b : Bytes}, (bmHas o.flags .noNumberValidation = true ∨ s = [] ∨ IsNumber s) → Judged W M o t ca (.str s) (.ok b) := by
    intro b h
    refine judged_ok fun _ => ⟨fun e he => ?_, fun ht => ?_, fun _ _ _ h1 => ?_⟩
    · cases he with
      | number _ h1 h2 h3 => rcases h with h | h | h <;> simp_all
      | _ => first | exact hb ‹_› | simp_all
    · rcases trap_kind (by rw [hs]; nofun) ht with h | h
      · exact hb h
      · rw [hs] at h; cases h
    · rcases encodes1_kind h1 with h | h
      · exact absurd h hb
      · rw [hs] at h; cases h
  cases hf : bmHas o.flags .noNumberValidation with
  | true =>
    by_cases h0 : s = []
    · subst h0
      have : encodeNumber [] [] true = .ok (b! "0") := rfl
      rw [this]
      exact hok (.inl hf)
    · rw [C07_no_validation _ _ h0]
      exact hok (.inl hf)
  | false =>
    rcases C07_encodeNumber s [] with ⟨h1, h2⟩ | ⟨h1, h2, h3⟩
    · rw [h1]
      refine hok (.inr ?_)
      by_cases h0 : s = []
      · exact .inl h0
      · rw [if_neg h0] at h2; exact .inr h2
    · rw [h1]
      exact judged_fault (.number hs hf h2 h3)

theorem judged_time (hs : (W.E t).special = some .time) {x : GoTime} :
    Judged W M o t ca (.time x) ((encodeTime W.appendFormat x [] (bmHas o.flags .unixTime) o.layout).res .timeRange []) := by
  have hb : ¬ ByKind W.E t ca := fun h => by have := h.special; rw [hs] at this; cases this
  by_cases hy : HasYear x
  · have hok : ∀ {b : Bytes}, Judged W M o t ca (.time x) (.ok b) := by
      refine judged_ok fun _ => ⟨fun e he => ?_, fun ht => ?_, fun _ _ _ h1 => ?_⟩
      · cases he with
        | time _ h => exact h hy
        | _ => first | exact hb ‹_› | simp_all
      · rcases trap_kind (by rw [hs]; nofun) ht with h | h
        · exact hb h
        · rw [hs] at h; cases h
      · rcases encodes1_kind h1 with h | h
        · exact absurd h hb
        · rw [hs] at h; cases h
    obtain ⟨⟨b, h1, -⟩, h2⟩ := time_text W.appendFormat hy [] o.layout
    cases bmHas o.flags .unixTime with
    | true => rw [h2]; exact hok
    | false => rw [h1]; exact hok
  · rw [(C11_year_range _ _ _ _ _).mpr hy]
    exact judged_fault (.time hs hy)

theorem judged_duration (hl : FormatContract W.fmt) (hs : (W.E t).special = some .duration) {d : Int64} :
    Judged W M o t ca (.int (.int64 d)) ((encodeDuration W.fmt W.df d [] o.durFmt).res (.unsupportedValue .f64 (durFloatOf W.df d o.durFmt)) []) := by
  have hb : ¬ ByKind W.E t ca := fun h => by have := h.special; rw [hs] at this; cases this
  have hok : ∀ {b : Bytes}, (o.durFmt = .seconds → IsFinite .f64 (W.df.seconds d)) → (o.durFmt = .minutes → IsFinite .f64 (W.df.minutes d)) →
      Judged W M o t ca (.int (.int64 d)) (.ok b) := by
    intro b e1 e2
    refine judged_ok fun _ => ⟨fun e he => ?_, fun ht => ?_, fun _ _ _ h1 => ?_⟩
    · cases he with
      | seconds _ h h' => exact h' (e1 h)
      | minutes _ h h' => exact h' (e2 h)
      | _ => first | exact hb ‹_› | simp_all
    · rcases trap_kind (by rw [hs]; nofun) ht with h | h
      · exact hb h
      · rw [hs] at h; cases h
    · rcases encodes1_kind h1 with h | h
      · exact absurd h hb
      · rw [hs] at h; cases h
  cases hd : o.durFmt with
  | str =>
    obtain ⟨x, h, -⟩ := C12_denotes W.fmt W.df d []
    rw [h]; exact hok (by simp [hd]) (by simp [hd])
  | nanoseconds => exact hok (by simp [hd]) (by simp [hd])
  | microseconds => exact hok (by simp [hd]) (by simp [hd])
  | milliseconds => exact hok (by simp [hd]) (by simp [hd])
  | minutes =>
    simp only [encodeDuration]
    by_cases hf : IsFinite .f64 (W.df.minutes d)
    · obtain ⟨out, _, _, h, -⟩ := C09_finite W.fmt hl [] .f64 _ hf
      rw [h]; exact hok (by simp [hd]) (fun _ => hf)
    · rw [(C09_nonfinite W.fmt [] .f64 _).mpr hf]
      exact judged_fault (.minutes hs hd hf)
  | seconds =>
    simp only [encodeDuration]
    by_cases hf : IsFinite .f64 (W.df.seconds d)
    · obtain ⟨out, _, _, h, -⟩ := C09_finite W.fmt hl [] .f64 _ hf
      rw [h]; exact hok (fun _ => hf) (by simp [hd])
    · rw [(C09_nonfinite W.fmt [] .f64 _).mpr hf]
      exact judged_fault (.seconds hs hd hf)

theorem judged_raw (hs : (W.E t).special = some .rawMessage) (b : Bytes) : Judged W M o t ca v (.ok b) := by
  have hb : ¬ ByKind W.E t ca := fun h => by have := h.special; rw [hs] at this; cases this
  refine judged_ok fun _ => ⟨fun e he => ?_, fun ht => ?_, fun _ _ _ h1 => ?_⟩
  · cases he with
    | _ => first | exact hb ‹_› | simp_all
  · rcases trap_kind (by rw [hs]; nofun) ht with h | h
    · exact hb h
    · rw [hs] at h; cases h
  · rcases encodes1_kind h1 with h | h
    · exact absurd h hb
    · rw [hs] at h; cases h

/-! ## Kinds without parts -/

theorem struct_not {k : Kind} (hk : (W.E t).kind = k) (hn : ∀ fs, k ≠ .struct fs) : ¬ IsStruct W.E t := by
  rintro ⟨fs, h⟩
  unfold HasFields at h
  rw [hk] at h
  exact hn fs h

theorem judged_plain (hb : ByKind W.E t ca) (hk : isBasicK (W.E t).kind = true) (hf : ∀ w b, v = .float w b → IsFinite w b) (b : Bytes) :
    Judged W M o t ca v (.ok b) := by
  have hst : ¬ IsStruct W.E t := struct_not rfl fun fs h => by rw [h] at hk; simp [isBasicK, isInteger] at hk
  refine judged_ok fun _ => ⟨fun e he => ?_, fun ht => ?_, fun _ _ _ h1 => ?_⟩
  · rcases fault_byKind hb he with ⟨w, b, h1, h2, h3⟩ | h | ⟨k, e, h, -⟩
    · exact h3 (hf _ _ h2)
    · rw [h] at hk; simp [isBasicK, isInteger] at hk
    · rw [h] at hk; simp [isBasicK, isInteger] at hk
  · obtain ⟨k, e, kvs, kv, h, -⟩ := trap_byKind hb ht
    rw [h] at hk; simp [isBasicK, isInteger] at hk
  · have hs := hb.special
    cases h1 with
    | field _ h => exact absurd h hst
    | skey h => rw [hs] at h; cases h
    | selem h => rw [hs] at h; cases h
    | _ => simp_all [isBasicK, isInteger]

theorem judged_basic (G : GoTypes W.E W.ptrTo) (hl : FormatContract W.fmt) (hb : ByKind W.E t ca) (hk : isBasicK (W.E t).kind = true) (hv : HasType W.E t v)
    {i : Instr} (hi : newBasicTypeInstr (W.E t).kind false = some i) (n : Nat) (path : Path) : Judged W M o t ca v (runV W M o (n + 1) path i v []) := by
  have hkk : (W.E t).kind = .bool ∨ (∃ k, (W.E t).kind = .int k) ∨ (∃ w, (W.E t).kind = .float w) ∨ (W.E t).kind = .string := by
    revert hk
    cases (W.E t).kind <;> simp [isBasicK, isInteger]
  rcases hkk with hk' | ⟨k, hk'⟩ | ⟨w, hk'⟩ | hk'
  · obtain ⟨x, rfl⟩ := has_bool G hk' hv
    rw [hk'] at hi; simp only [newBasicTypeInstr, Bool.false_eq_true, if_false, Option.some.injEq] at hi; subst hi
    exact judged_plain hb hk (by simp) _
  · obtain ⟨x, rfl, -⟩ := has_int G hk' hv
    rw [hk'] at hi; simp only [newBasicTypeInstr, Bool.false_eq_true, if_false, Option.some.injEq] at hi; subst hi
    exact judged_plain hb hk (by simp) _
  · obtain ⟨x, rfl⟩ := has_float G hk' hv
    rw [hk'] at hi; simp only [newBasicTypeInstr, Bool.false_eq_true, if_false, Option.some.injEq] at hi; subst hi
    simp only [runV, execV]
    by_cases hf : IsFinite w x
    · obtain ⟨out, _, _, h, -⟩ := C09_finite W.fmt hl [] w x hf
      rw [h]
      exact judged_plain hb hk (by rintro _ _ ⟨⟩; exact hf) _
    · rw [(C09_nonfinite W.fmt [] w x).mpr hf]
      exact judged_fault (.float hb hk' hf)
  · obtain ⟨x, rfl⟩ := has_str G hk' hv
    rw [hk'] at hi; simp only [newBasicTypeInstr, Bool.false_eq_true, if_false, Option.some.injEq] at hi; subst hi
    exact judged_plain hb hk (by simp) _

/-! ## Keys -/

theorem compact_short {j : Json} {c : Bytes} (h : CompactText j c) (hc : c.length < 2) : j = .num c := by
  unfold CompactText at h
  cases h with
  | num => rfl
  | str => simp [strToken] at hc; omega
  | arr0 => simp at hc; omega
  | arr => simp at hc; omega
  | obj0 => simp at hc; omega
  | obj => simp at hc; omega
  | _ => simp at hc

theorem intPart_short {s : Bytes} (h : IntPart s) : (s.length < 2 ↔ digitsVal s ≤ 9) ∧ 1 ≤ s.length := by
  rcases h with rfl | ⟨d, ds, rfl, ⟨h1, h2⟩, -⟩
  · exact ⟨by decide, by decide⟩
  · have h1' : 49 ≤ d.toNat := UInt8.le_iff_toNat_le.mp h1
    have h2' : d.toNat ≤ 57 := UInt8.le_iff_toNat_le.mp h2
    refine ⟨?_, by simp⟩
    rw [digitsVal_cons]
    cases ds with
    | nil => simp [digitsVal]; omega
    | cons c ds =>
      have : 10 ≤ 10 ^ (c :: ds).length := by
        rw [List.length_cons, Nat.pow_succ]
        have := Nat.one_le_two_pow (n := ds.length)
        have h10 : 1 ≤ 10 ^ ds.length := Nat.one_le_iff_ne_zero.mpr (by simp)
        omega
      have : 10 ≤ (d.toNat - 48) * 10 ^ (c :: ds).length := Nat.le_trans this (Nat.le_mul_of_pos_left _ (by omega))
      simp only [List.length_cons] at this ⊢
      omega

theorem intLiteral_short {b : Bytes} {i : Int} (h : IntLiteral b i) : b.length < 2 ↔ 0 ≤ i ∧ i ≤ 9 := by
  cases h with
  | nonneg _ h =>
    have := (intPart_short h).1
    omega
  | neg s h h0 =>
    have := (intPart_short h).2
    simp only [List.length_cons]
    omega

/-- What a text key must not be: the text of a key with a `MarshalText` method has less than two
bytes exactly if the key is short. -/
theorem short_iff (G : GoTypes W.E W.ptrTo) (hvc : ValidContract W.jsonValid) (hst : StdText W.E) (hx : (W.E t).meths.text = true)
    (hv : HasType W.E t v) {i : Instr} (hm : ∃ k, newInstruction W.E k t ca false = some i) {n : Nat} {path : Path} {b : Bytes}
    (h : runV W M o n path i v [] = .ok b) :
    (b.length < 2 → ShortKey W M o t ca v) ∧ (PathFree M → ShortKey W M o t ca v → b.length < 2) := by
  obtain ⟨k, hm⟩ := hm
  cases n with
  | zero => cases h
  | succ n =>
  cases hs : (W.E t).special with
  | some s =>
    have := hst t s hs hx
    subst this
    have hi := special_made hs hm
    subst hi
    obtain ⟨x, rfl⟩ := has_time G hs hv
    simp only [runV, execV, encodeSpecialV] at h
    by_cases hy : HasYear x
    · obtain ⟨⟨b', h1, h1'⟩, h2⟩ := time_text W.appendFormat hy [] o.layout
      cases hu : bmHas o.flags .unixTime with
      | true =>
        rw [hu, h2] at h
        simp only [BRes.res, Res.ok.injEq] at h
        obtain ⟨out, h3, h4⟩ := appendInt_lit [] (Int64.ofInt x.unix)
        rw [h3, List.nil_append] at h
        subst h
        rw [intLiteral_short h4]
        refine ⟨fun h => .time hx hs hu hy h.1 h.2, fun _ h => ?_⟩
        cases h with
        | time _ _ _ _ a1 a2 => exact ⟨a1, a2⟩
        | _ => simp_all
      | false =>
        rw [hu, h1] at h
        simp only [BRes.res, Res.ok.injEq, List.nil_append] at h
        subst h
        refine ⟨fun h => by omega, fun _ h => ?_⟩
        cases h with
        | time _ _ h => rw [hu] at h; cases h
        | _ => simp_all
    · rw [(C11_year_range _ _ _ _ _).mpr hy] at h
      cases h
  | none =>
    rcases picks_or_byKind (ca := ca) hs with hb | ⟨m, hp⟩
    · exact absurd (.inr (.inr (.inr hx))) hb.meths
    · have hi := picks_made hs hp hm
      subst hi
      have inv : ShortKey W M o t ca v → ∃ rt x u path b, Receives W.E W.ptrTo t m v rt x u ∧ M path m (argCtx o m) rt x [] = .ok b ∧
          (((m = .appendCtx ∨ m = .append) ∧ b.length < 2) ∨ (m = .json ∧ bmHas o.flags .noCompact = true ∧ b.length < 2) ∨
            (m = .json ∧ bmHas o.flags .noCompact = false ∧ ∃ lit, JsonText (.num lit) b ∧ lit.length < 2)) := by
        intro h
        cases h with
        | time _ hh => rw [hs] at hh; cases hh
        | append _ _ hp' hm hr hM hl => have := picks_unique hp hp'; subst this; exact ⟨_, _, _, _, _, hr, hM, .inl ⟨hm, hl⟩⟩
        | verbatim _ _ hp' hr hM hn hl => have := picks_unique hp hp'; subst this; exact ⟨_, _, _, _, _, hr, hM, .inr (.inl ⟨rfl, hn, hl⟩)⟩
        | json _ _ hp' hr hM hn hj hl =>
          have := picks_unique hp hp'; subst this
          exact ⟨_, _, _, _, _, hr, hM, .inr (.inr ⟨rfl, hn, _, hj, hl⟩)⟩
      rcases receives_or_nil G hv hp with ⟨rfl, hh, hpi⟩ | ⟨rt, x, u, hr⟩
      · rw [runV_methNil hh hpi] at h
        simp only [Res.ok.injEq, List.nil_append] at h
        subst h
        refine ⟨by simp, fun _ h => ?_⟩
        obtain ⟨_, _, _, _, _, hr, -⟩ := inv h
        exact (receives_nil hh hpi hr).elim
      · have rel := runV_meth (o := o) (M := M) G hvc hr n path []
        rw [h] at rel
        have conv : PathFree M → ShortKey W M o t ca v → ∀ {b'}, M path m (argCtx o m) rt x [] = .ok b' →
            (((m = .appendCtx ∨ m = .append) ∧ b'.length < 2) ∨ (m = .json ∧ bmHas o.flags .noCompact = true ∧ b'.length < 2) ∨
            (m = .json ∧ bmHas o.flags .noCompact = false ∧ ∃ lit, JsonText (.num lit) b' ∧ lit.length < 2)) := by
          intro hpf hk b' hM
          obtain ⟨rt', x', u', path', b'', hr', hM', h⟩ := inv hk
          obtain ⟨rfl, rfl, rfl⟩ := receives_unique hr hr'
          rw [hpf path' path, hM] at hM'
          cases hM'
          exact h
        cases rel with
        | ctx hM =>
          refine ⟨fun hl => .append hx hs hp (.inl rfl) hr hM hl, fun hpf hk => ?_⟩
          rcases conv hpf hk hM with ⟨-, h⟩ | ⟨h, -⟩ | ⟨h, -⟩
          · exact h
          · cases h
          · cases h
        | app hM =>
          refine ⟨fun hl => .append hx hs hp (.inr rfl) hr hM hl, fun hpf hk => ?_⟩
          rcases conv hpf hk hM with ⟨-, h⟩ | ⟨h, -⟩ | ⟨h, -⟩
          · exact h
          · cases h
          · cases h
        | verbatim hM hn =>
          refine ⟨fun hl => .verbatim hx hs hp hr hM hn hl, fun hpf hk => ?_⟩
          rcases conv hpf hk hM with ⟨h, -⟩ | ⟨-, -, h⟩ | ⟨-, h, -⟩
          · rcases h with h | h <;> cases h
          · exact h
          · rw [hn] at h; cases h
        | compacted hM hn hj hc =>
          refine ⟨fun hl => ?_, fun hpf hk => ?_⟩
          · have := compact_short hc hl
            subst this
            exact .json hx hs hp hr hM hn hj hl
          · rcases conv hpf hk hM with ⟨h, -⟩ | ⟨-, h, -⟩ | ⟨-, -, lit, h, hl⟩
            · rcases h with h | h <;> cases h
            · rw [hn] at h; cases h
            · have := jsonText_unique hj h
              subst this
              rw [(compact_num hc).1]; exact hl
        | text hM =>
          refine ⟨fun hl => by simp [strToken] at hl; omega, fun hpf hk => ?_⟩
          rcases conv hpf hk hM with ⟨h, -⟩ | ⟨h, -⟩ | ⟨h, -⟩
          · rcases h with h | h <;> cases h
          · cases h
          · cases h

/-- The assumptions about the program and the standard library. -/
structure FaultReady (W : World) (H : Heap) (M : MethV) : Prop where
  ready : Ready W H M
  fmt : FormatContract W.fmt
  honest : HonestAppend M
  order : OrderOk W.order
  valid : ValidContract W.jsonValid
  std : StdText W.E

/-- The claim for depth `n`. -/
def JudgedAt (W : World) (H : Heap) (M : MethV) (o : EncOpts) (n : Nat) : Prop :=
  ∀ t ca q i v path, (∃ k, newInstruction W.E k t ca q = some i) → (∃ p, Repr W.E H.mem t p v) → Judged W M o t ca v (runV W M o n path i v [])

/-- The outcome of a key, encoded if `ne`. -/
structure KeyJudged (W : World) (M : MethV) (o : EncOpts) (t : TId) (ca : Bool) (v : Val) (ne : Prop) (r : Res) : Prop where
  clean : ∀ b, r = .ok b → PathFree M → (W.E t).kind ≠ .string → ne → Clean W M o t ca v
  short : ∀ b, r = .ok b → b.length < 2 → (W.E t).kind ≠ .string ∧ ShortKey W M o t ca v
  long : ∀ b, r = .ok b → PathFree M → (W.E t).kind ≠ .string → ShortKey W M o t ca v → b.length < 2
  stop : (∀ b, r ≠ .ok b) → r = .nofuel ∨ ((W.E t).kind ≠ .string ∧ ne ∧ Judged W M o t ca v r)

theorem short_text (h : ShortKey W M o t ca v) : (W.E t).meths.text = true := by cases h <;> assumption

theorem keyJudged_nofuel {ne : Prop} : KeyJudged W M o t ca v ne .nofuel :=
  ⟨by simp, by simp, by simp, fun _ => .inl rfl⟩

theorem keyJudged_str {ne : Prop} (hs : (W.E t).kind = .string) {b : Bytes} (hb : 2 ≤ b.length) :
    KeyJudged W M o t ca v ne (.ok b) where
  clean b _ _ h := absurd hs h
  short b' h hl := by cases h; omega
  long b _ _ h := absurd hs h
  stop h := absurd rfl (h b)

/-- The key is encoded by what is made for its type. -/
theorem keyJudged_run {ne : Prop} (hs : (W.E t).kind ≠ .string) (hne : ne) (hJ : Judged W M o t ca v r)
    (h : ∀ b, r = .ok b → (b.length < 2 → ShortKey W M o t ca v) ∧ (PathFree M → ShortKey W M o t ca v → b.length < 2)) :
    KeyJudged W M o t ca v ne r where
  clean b hb hp _ _ := hJ.ok b hb hp
  short b hb hl := ⟨hs, (h b hb).1 hl⟩
  long b hb hp _ hk := (h b hb).2 hp hk
  stop _ := .inr ⟨hs, hne, hJ⟩

/-- The key is encoded between quotes. -/
theorem keyJudged_quoted {ne : Prop} (hs : (W.E t).kind ≠ .string) (ht : (W.E t).meths.text = false) (hne : ne) (hJ : Judged W M o t ca v r)
    (h : ∀ b, r = .ok b → 2 ≤ b.length) : KeyJudged W M o t ca v ne r where
  clean b hb hp _ _ := hJ.ok b hb hp
  short b hb hl := by have := h b hb; omega
  long b hb hp _ hk := by rw [short_text hk] at ht; cases ht
  stop _ := .inr ⟨hs, hne, hJ⟩

theorem encodeString_len (s dst : Bytes) (eo : EscOpts) : 2 ≤ (encodeString s dst eo).length := by
  simp only [encodeString]
  rw [appendEscapedBytes_append]
  simp; omega

/-- Putting quotes around changes only the text. -/
theorem quotes_like {n : Nat} {path : Path} {i : Instr} {x : Val} (hf : Pre (runV W M o n path i x)) :
    ((∃ b b', runV W M o n path i x [] = .ok b ∧ runV W M o (n + 1) path (.quoted i) x [] = .ok b' ∧ 2 ≤ b'.length)) ∨
      Stops (runV W M o n path i x []) (runV W M o (n + 1) path (.quoted i) x []) := by
  have e : runV W M o (n + 1) path (.quoted i) x [] = execV W M o (runV W M o n) path (.quoted i) x [] := rfl
  rw [e]
  simp only [execV, List.nil_append]
  rcases pre_cases hf (b! "\"") with ⟨b, h1, h2⟩ | ⟨h1, h2⟩
  · rw [h2]
    exact .inl ⟨b, _, h1, rfl, by simp⟩
  · right
    refine stops_trans h1 ?_
    generalize runV W M o n path i x (b! "\"") = r at h2 ⊢
    cases r with
    | ok b => exact absurd rfl (h2 b)
    | fail e b => exact .fail
    | panic => exact .panic
    | bad => exact .bad
    | nofuel => exact .nofuel

theorem judged_key (D : FaultReady W H M) {n : Nat} (ih : ∀ m, m ≤ n → JudgedAt W H M o m) {kt : TId} {k' : Nat} {ki : Instr}
    (hki : (if isStringK (W.E kt).kind then some .string else newInstruction W.E k' kt false false) = some ki) {x : Val}
    (hx : ∃ p, Repr W.E H.mem kt p x) (path : Path) :
    KeyJudged W M o kt false x ((W.E kt).meths.text = true → IsPtr W.E kt → x ≠ .nil) (runV W M o n path (wrapKey W.E kt ki) x []) := by
  have G := D.ready.types
  obtain ⟨p, hp⟩ := hx
  have hv := repr_hasType hp
  cases n with
  | zero => exact keyJudged_nofuel
  | succ n =>
  by_cases hs : (W.E kt).kind = .string
  · have h1 : isStringK (W.E kt).kind = true := by rw [hs]; rfl
    have h2 : isPtrK (W.E kt).kind = false := by rw [hs]; rfl
    rw [h1] at hki
    simp only [if_true, Option.some.injEq] at hki
    subst hki
    obtain ⟨s, rfl⟩ := has_str G hs hv
    simp only [wrapKey, h1, h2, Bool.not_true, Bool.false_and, Bool.and_false, Bool.false_eq_true, if_false]
    exact keyJudged_str hs (encodeString_len _ _ _)
  · have h1 : isStringK (W.E kt).kind = false := by
      cases h : isStringK (W.E kt).kind with
      | false => rfl
      | true => exact absurd (isStringK_iff.mp h) hs
    rw [h1] at hki
    simp only [Bool.false_eq_true, if_false] at hki
    simp only [wrapKey, h1, Bool.not_false, Bool.true_and]
    cases ht : (W.E kt).meths.text with
    | false =>
      simp only [Bool.not_false, if_true, Bool.false_and, Bool.false_eq_true, if_false]
      have hJ := ih n (by omega) kt false false ki x path ⟨k', hki⟩ ⟨p, hp⟩
      have hq := quotes_like (o := o) (pre_runV (contract_long D.fmt) D.honest n path ki x)
      refine keyJudged_quoted hs ht (by simp) (judged_like hJ ?_) fun b hb => ?_
      · rcases hq with ⟨b, b', h1, h2, -⟩ | h
        · exact .inl ⟨b, b', h1, h2⟩
        · exact .inr h
      · rcases hq with ⟨c, b', h1, h2, h3⟩ | h
        · rw [h2] at hb; cases hb; exact h3
        · rw [hb] at h; exact (stops_ok h).elim
    | true =>
      simp only [Bool.not_true, Bool.false_eq_true, if_false, Bool.true_and]
      cases hp' : isPtrK (W.E kt).kind with
      | false =>
        simp only [Bool.false_eq_true, if_false]
        have hJ := ih (n + 1) (Nat.le_refl _) kt false false ki x path ⟨k', hki⟩ ⟨p, hp⟩
        refine keyJudged_run hs (fun _ h => ?_) hJ fun b hb => short_iff G D.valid D.std ht hv ⟨k', hki⟩ hb
        rw [(isPtr_iff _ _).mp h] at hp'; cases hp'
      | true =>
        simp only [if_true]
        have hP := (isPtr_iff _ _).mpr hp'
        have hJ := ih n (by omega) kt false false ki x path ⟨k', hki⟩ ⟨p, hp⟩
        by_cases hn : x = .nil
        · subst hn
          simp only [runV, execV]
          exact ⟨fun b _ _ _ h => absurd rfl (h trivial hP), fun b h hl => by cases h; simp at hl, fun b _ _ _ h => by
            exfalso
            cases h with
            | append _ hs' hp _ hr => exact receives_nil' hP hp hr
            | verbatim _ hs' hp hr => exact receives_nil' hP hp hr
            | json _ hs' hp hr => exact receives_nil' hP hp hr, fun h => absurd rfl (h _)⟩
        · have e : runV W M o (n + 1) path (.nilText ki) x [] = runV W M o n path ki x [] := by
            simp only [runV, execV]
          rw [e]
          exact keyJudged_run hs (fun _ _ => hn) hJ fun b hb => short_iff G D.valid D.std ht hv ⟨k', hki⟩ hb

/-! ## Interfaces and `sync.Map` -/

theorem appendJSONV_made {d : TId} {x : Val} (n : Nat) (path : Path) :
    (∀ dst, appendJSONV W (runV W M o n) path (.iface d x) dst = .nofuel) ∨
      ∃ m j, m ≤ n ∧ (∃ k, newInstruction W.E k d (isPtrK (W.E d).kind) false = some j) ∧
        ∀ dst, appendJSONV W (runV W M o n) path (.iface d x) dst = runV W M o m path j x dst := by
  simp only [appendJSONV, instrFor]
  cases hj : newInstruction W.E W.tfuel d (isPtrK (W.E d).kind) false with
  | none => exact .inl fun _ => rfl
  | some j =>
    simp only
    by_cases hi : isInlined W.E W.tfuel d = true
    · rw [if_pos hi]
      cases n with
      | zero => exact .inl fun _ => rfl
      | succ n => exact .inr ⟨n, j, by omega, ⟨_, hj⟩, fun _ => rfl⟩
    · rw [if_neg hi]
      exact .inr ⟨n, j, Nat.le_refl _, ⟨_, hj⟩, fun _ => rfl⟩

theorem judged_held {n : Nat} (ih : ∀ m, m ≤ n → JudgedAt W H M o m) {d : TId} {x : Val} (hx : ∃ p, Repr W.E H.mem d p x) (path : Path) :
    Judged W M o d (isPtrK (W.E d).kind) x (appendJSONV W (runV W M o n) path (.iface d x) []) := by
  rcases appendJSONV_made (W := W) (M := M) (o := o) (d := d) (x := x) n path with h | ⟨m, j, hm, hj, h⟩
  · rw [h]; exact judged_nofuel
  · rw [h]; exact ih m hm _ _ _ _ _ _ hj hx

theorem judged_skey (D : FaultReady W H M) {n : Nat} (ih : ∀ m, m ≤ n → JudgedAt W H M o m) {kt : TId} (hkt : KeyType W.E kt) {x : Val}
    (hx : ∃ p, Repr W.E H.mem kt p x) (path : Path) :
    KeyJudged W M o kt (isPtrK (W.E kt).kind) x True (appendSyncMapKeyV W o (runV W M o n) path (.iface kt x) []) := by
  have G := D.ready.types
  obtain ⟨p, hp⟩ := hx
  have hv := repr_hasType hp
  have hok := (mapKeyOk_iff W.E kt).mpr hkt
  simp only [mapKeyOk] at hok
  simp only [appendSyncMapKeyV]
  rw [if_neg (by revert hok; cases isStringK (W.E kt).kind <;> cases isInteger (W.E kt).kind <;> cases (W.E kt).meths.text <;> simp)]
  by_cases hs : (W.E kt).kind = .string
  · obtain ⟨s, rfl⟩ := has_str G hs hv
    rw [if_pos (isStringK_iff.mpr hs)]
    exact keyJudged_str hs (encodeString_len _ _ _)
  · have h1 : isStringK (W.E kt).kind = false := by
      cases h : isStringK (W.E kt).kind with
      | false => rfl
      | true => exact absurd (isStringK_iff.mp h) hs
    rw [h1]
    simp only [Bool.false_eq_true, if_false, Bool.not_false, Bool.true_and]
    have hJ := judged_held ih ⟨p, hp⟩ path
    have hpre := pre_appendJSONV (W := W) (pre_runV (o := o) (contract_long D.fmt) D.honest n) path (.iface kt x)
    cases ht : (W.E kt).meths.text with
    | false =>
      simp only [Bool.not_false, if_true, List.nil_append]
      rcases pre_cases hpre (b! "\"") with ⟨b, h1, h2⟩ | ⟨h1, h2⟩
      · rw [h2]
        exact keyJudged_quoted hs ht trivial (judged_like hJ (.inl ⟨_, _, h1, rfl⟩)) fun b hb => by cases hb; simp
      · have : ∀ r, Stops (appendJSONV W (runV W M o n) path (.iface kt x) []) r → (∀ b, r ≠ .ok b) →
            KeyJudged W M o kt (isPtrK (W.E kt).kind) x True
              (match r with | .ok dst => .ok (dst ++ b! "\"") | r => r) := by
          intro r h3 h4
          have := keyJudged_quoted (o := o) hs ht trivial (judged_like hJ (.inr h3)) fun b hb => absurd hb (h4 b)
          cases r with
          | ok b => exact absurd rfl (h4 b)
          | fail e b => exact this
          | panic => exact this
          | bad => exact this
          | nofuel => exact this
        exact this _ h1 h2
    | true =>
      simp only [Bool.not_true, Bool.false_eq_true, if_false]
      have e : ∀ r : Res, (match r with | .ok dst => Res.ok dst | r => r) = r := by intro r; cases r <;> rfl
      have key : KeyJudged W M o kt (isPtrK (W.E kt).kind) x True (appendJSONV W (runV W M o n) path (.iface kt x) []) := by
        refine keyJudged_run hs trivial hJ fun b hb => ?_
        rcases appendJSONV_made (W := W) (M := M) (o := o) (d := kt) (x := x) n path with h | ⟨m, j, hm, hj, h⟩
        · rw [h] at hb; cases hb
        · rw [h] at hb
          exact short_iff G D.valid D.std ht hv hj hb
      rw [← e (appendJSONV W (runV W M o n) path (.iface kt x) [])] at key
      exact key

theorem reprE_cases {e : Eface} {x : Val} (h : ReprE W.E H.mem e x) : x = .nil ∨ ∃ d y, x = .iface d y ∧ ∃ p, Repr W.E H.mem d p y := by
  cases h with
  | nil => exact .inl rfl
  | direct _ h => exact .inr ⟨_, _, rfl, _, h⟩
  | indirect _ h => exact .inr ⟨_, _, rfl, _, h⟩

theorem judged_smap (D : FaultReady W H M) {n : Nat} (ih : ∀ m, m ≤ n → JudgedAt W H M o m) (hs : (W.E t).special = some .syncMap)
    {kvs : List (Val × Val)} (h1 : ∀ kv ∈ kvs, ∃ e, ReprE W.E H.mem e kv.1) (h2 : ∀ kv ∈ kvs, ∃ e, ReprE W.E H.mem e kv.2) (path : Path) :
    Judged W M o t ca (.smap kvs) (encodeSpecialV W o (runV W M o n) path .syncMap (.smap kvs) []) := by
  have hb : ¬ ByKind W.E t ca := fun h => by have := h.special; rw [hs] at this; cases this
  have hpre := pre_runV (W := W) (M := M) (o := o) (contract_long D.fmt) D.honest n
  simp only [encodeSpecialV]
  rcases entries_stop (W := W) (o := o) (kf := fun n' (e : Val × Val) dst => appendSyncMapKeyV W o (runV W M o n) ((2 * n') :: path) e.1 dst)
    (vf := fun n' e dst => appendJSONV W (runV W M o n) ((2 * n' + 1) :: path) e.2 dst)
    (fun n' e => pre_syncMapKeyV hpre _ _) (fun n' e => pre_appendJSONV hpre _ _) (W.visit path kvs) [] with ⟨⟨b, hok⟩, hall⟩ | ⟨a, ha, n', hst⟩
  · rw [hok]
    have hmem : ∀ kv ∈ kvs, kv ∈ W.visit path kvs := fun kv h => (visit_perm D.order path kvs).mem_iff.mpr h
    refine judged_ok fun hpf => ⟨fun e he => ?_, fun ht => ?_, fun t' ca' v' he => ?_⟩
    · cases he with
      | nilKey _ hkv hn =>
        obtain ⟨m, k, x, hk, -⟩ := hall _ (hmem _ hkv)
        rw [hn] at hk
        cases hk
      | badKey _ hkv hi hn =>
        obtain ⟨m, k, x, hk, -⟩ := hall _ (hmem _ hkv)
        rw [hi] at hk
        simp only [appendSyncMapKeyV] at hk
        rw [if_pos] at hk
        · cases hk
        · have : mapKeyOk W.E _ = false := Bool.eq_false_iff.mpr fun h => hn ((mapKeyOk_iff _ _).mp h)
          revert this
          simp only [mapKeyOk]
          cases isStringK (W.E _).kind <;> cases isInteger (W.E _).kind <;> cases (W.E _).meths.text <;> simp
      | _ => first | exact hb ‹_› | simp_all
    · cases ht with
      | method h => rw [hs] at h; cases h
      | nilElem _ hkv hn =>
        obtain ⟨m, k, x, -, hx, -⟩ := hall _ (hmem _ hkv)
        rw [hn] at hx
        cases hx
      | skey _ hu hkv hi hns hsk =>
        obtain ⟨m, k, x, hk, -, hl⟩ := hall _ (hmem _ hkv)
        obtain ⟨e, he⟩ := h1 _ hkv
        rw [hi] at he hk
        rcases reprE_cases he with h | ⟨d, y, h, hp⟩
        · cases h
        · cases h
          have := (judged_skey (o := o) D ih (.inr (.inr (short_text hsk))) hp ((2 * m) :: path)).long _ hk hpf hns hsk
          have := hl hu
          omega
    · cases he with
      | skey _ hkv hi hkt hns =>
        obtain ⟨m, k, x, hk, -⟩ := hall _ (hmem _ hkv)
        obtain ⟨e, he⟩ := h1 _ hkv
        rw [hi] at he hk
        rcases reprE_cases he with h | ⟨d, y, h, hp⟩
        · cases h
        · cases h
          exact (judged_skey (o := o) D ih hkt hp ((2 * m) :: path)).clean _ hk hpf hns trivial
      | selem _ hkv hi =>
        obtain ⟨m, k, x, -, hx, -⟩ := hall _ (hmem _ hkv)
        obtain ⟨e, he⟩ := h2 _ hkv
        rw [hi] at he hx
        rcases reprE_cases he with h | ⟨d, y, h, hp⟩
        · cases h
        · cases h
          exact (judged_held (o := o) ih hp ((2 * m + 1) :: path)).ok _ hx hpf
      | _ => exact absurd ‹ByKind _ _ _› hb
  · have ha' := visit_mem ha
    generalize encodeEntries W o _ _ (W.visit path kvs) [] = res at hst
    dsimp only at hst
    rcases hst with hst | hst | ⟨hu, rfl, b, hk, hl⟩
    · obtain ⟨e, he⟩ := h1 _ ha'
      rcases reprE_cases he with h | ⟨d, y, h, hp⟩
      · rw [h] at hst
        simp only [appendSyncMapKeyV] at hst
        cases hst
        exact judged_fault (.nilKey hs ha' h)
      · by_cases hkt : KeyType W.E d
        · have hj := judged_skey (o := o) D ih hkt hp ((2 * n') :: path)
          rw [h] at hst
          rcases hj.stop (fun b hb => by rw [hb] at hst; cases hst) with hnf | ⟨a1, -, a3⟩
          · rw [hnf] at hst; cases hst; exact judged_nofuel
          · exact judged_stop (.skey hs ha' h hkt a1) a3 hst
        · rw [h] at hst
          simp only [appendSyncMapKeyV] at hst
          rw [if_pos] at hst
          · cases hst
            exact judged_fault (.badKey hs ha' h hkt)
          · have : mapKeyOk W.E d = false := Bool.eq_false_iff.mpr fun h => hkt ((mapKeyOk_iff _ _).mp h)
            revert this
            simp only [mapKeyOk]
            cases isStringK (W.E d).kind <;> cases isInteger (W.E d).kind <;> cases (W.E d).meths.text <;> simp
    · obtain ⟨e, he⟩ := h2 _ ha'
      rcases reprE_cases he with h | ⟨d, y, h, hp⟩
      · rw [h] at hst
        simp only [appendJSONV] at hst
        cases hst
        exact judged_trap (.nilElem hs ha' h)
      · rw [h] at hst
        exact judged_stop (.selem hs ha' h) (judged_held (o := o) ih hp _) hst
    · obtain ⟨e, he⟩ := h1 _ ha'
      rcases reprE_cases he with h | ⟨d, y, h, hp⟩
      · rw [h] at hk; cases hk
      · rw [h] at hk
        by_cases hkt : KeyType W.E d
        · obtain ⟨a1, a2⟩ := (judged_skey (o := o) D ih hkt hp ((2 * n') :: path)).short _ hk hl
          exact judged_trap (.skey hs hu ha' h a1 a2)
        · simp only [appendSyncMapKeyV] at hk
          rw [if_pos] at hk
          · cases hk
          · have : mapKeyOk W.E d = false := Bool.eq_false_iff.mpr fun h => hkt ((mapKeyOk_iff _ _).mp h)
            revert this
            simp only [mapKeyOk]
            cases isStringK (W.E d).kind <;> cases isInteger (W.E d).kind <;> cases (W.E d).meths.text <;> simp

/-! ## Kinds with parts -/

theorem judged_parts (hb : ByKind W.E t ca) (h1 : ∀ w, (W.E t).kind ≠ .float w) (h2 : (W.E t).kind ≠ .other) (h3 : ∀ k e, (W.E t).kind ≠ .map k e)
    (h : PathFree M → ∀ t' ca' v', Encodes1 W o t ca v t' ca' v' → Clean W M o t' ca' v') (b : Bytes) : Judged W M o t ca v (.ok b) := by
  refine judged_ok fun hp => ⟨fun e he => ?_, fun ht => ?_, h hp⟩
  · rcases fault_byKind hb he with ⟨w, b, h, -⟩ | h | ⟨k, e, h, -⟩
    · exact h1 _ h
    · exact h2 h
    · exact h3 _ _ h
  · obtain ⟨k, e, kvs, kv, h, -⟩ := trap_byKind hb ht
    exact h3 _ _ h

theorem judged_ptr (D : FaultReady W H M) {n : Nat} (ih : ∀ m, m ≤ n → JudgedAt W H M o m) (hb : ByKind W.E t ca) {e : TId} (hk : (W.E t).kind = .ptr e)
    (hx : ∃ p, Repr W.E H.mem t p v) {q : Bool} {i : Instr} {k : Nat} (hi : newInstruction W.E k t ca q = some i) (path : Path) :
    Judged W M o t ca v (runV W M o (n + 1) path i v []) := by
  have hst : ¬ IsStruct W.E t := struct_not hk (by simp)
  have hsp := hb.special
  obtain ⟨p, hp⟩ := hx
  obtain ⟨k', j, hj, rfl⟩ := byKind_ptr hb hk hi
  rcases repr_ptr D.ready.types hk hp with ⟨rfl, -⟩ | ⟨a, x, rfl, -, -, hx⟩
  · refine judged_parts hb (by simp [hk]) (by simp [hk]) (by simp [hk]) (fun _ t' ca' v' h1 => ?_) _
    cases h1 with
    | field _ h => exact absurd h hst
    | _ => simp_all
  · have e1 : runV W M o (n + 1) path (.ptr j) (.ptr x) [] = runV W M o n path j x [] := rfl
    rw [e1]
    have hJ := ih n (Nat.le_refl _) e true q j x path ⟨_, hj⟩ ⟨_, hx⟩
    rcases pre_cases (pre_runV (W := W) (M := M) (o := o) (contract_long D.fmt) D.honest n path j x) [] with ⟨b, h1, -⟩ | ⟨h1, -⟩
    · rw [h1]
      refine judged_parts hb (by simp [hk]) (by simp [hk]) (by simp [hk]) (fun hpf t' ca' v' h2 => ?_) _
      cases h2 with
      | ptr _ hk' => rw [hk] at hk'; cases hk'; exact hJ.ok _ h1 hpf
      | field _ h => exact absurd h hst
    · exact judged_stop (.ptr hb hk) hJ h1

theorem judged_iface (D : FaultReady W H M) {n : Nat} (ih : ∀ m, m ≤ n → JudgedAt W H M o m) (hb : ByKind W.E t ca) {e : Nat} (hk : (W.E t).kind = .iface e)
    (hx : ∃ p, Repr W.E H.mem t p v) {q : Bool} {i : Instr} {k : Nat} (hi : newInstruction W.E k t ca q = some i) (path : Path) :
    Judged W M o t ca v (runV W M o (n + 1) path i v []) := by
  have hst : ¬ IsStruct W.E t := struct_not hk (by simp)
  have hsp := hb.special
  obtain ⟨p, hp⟩ := hx
  have := byKind_iface hb hk hi
  subst this
  obtain ⟨y, -, hy⟩ := repr_iface D.ready.types hk hp
  rcases reprE_cases hy with rfl | ⟨d, x, rfl, hx⟩
  · refine judged_parts hb (by simp [hk]) (by simp [hk]) (by simp [hk]) (fun _ t' ca' v' h1 => ?_) _
    cases h1 with
    | field _ h => exact absurd h hst
    | _ => simp_all
  · have e : runV W M o (n + 1) path .iface (.iface d x) [] = appendJSONV W (runV W M o n) path (.iface d x) [] := rfl
    rw [e]
    have hJ := judged_held ih hx path
    rcases pre_cases (pre_appendJSONV (W := W) (pre_runV (W := W) (M := M) (o := o) (contract_long D.fmt) D.honest n) path (.iface d x)) [] with ⟨b, h1, -⟩ | ⟨h1, -⟩
    · rw [h1]
      refine judged_parts hb (by simp [hk]) (by simp [hk]) (by simp [hk]) (fun hpf t' ca' v' h2 => ?_) _
      cases h2 with
      | iface _ hk' => exact hJ.ok _ h1 hpf
      | field _ h => exact absurd h hst
    · exact judged_stop (.iface hb hk) hJ h1

theorem judged_slice (D : FaultReady W H M) {n : Nat} (ih : ∀ m, m ≤ n → JudgedAt W H M o m) (hb : ByKind W.E t ca) {e : TId} (hk : (W.E t).kind = .slice e)
    (hx : ∃ p, Repr W.E H.mem t p v) {q : Bool} {i : Instr} {k : Nat} (hi : newInstruction W.E k t ca q = some i) (path : Path) :
    Judged W M o t ca v (runV W M o (n + 1) path i v []) := by
  have hst : ¬ IsStruct W.E t := struct_not hk (by simp)
  have hsp := hb.special
  obtain ⟨p, hp⟩ := hx
  cases he : isByteElem W.E e with
  | true =>
    have := byKind_byteSlice hb hk he hi
    subst this
    have hB := (isByteElem_iff W.E e).mp he
    have e1 : runV W M o (n + 1) path .byteSlice v [] =
      withRead (byteSliceOf v) fun b => .ok (encodeByteSlice b [] o.esc (bmHas o.flags .rawByteSlice)) := rfl
    rw [e1]
    cases byteSliceOf v with
    | none => exact judged_bad
    | some b =>
      refine judged_parts hb (by simp [hk]) (by simp [hk]) (by simp [hk]) (fun _ t' ca' v' h1 => ?_) _
      cases h1 with
      | slice _ hk' hne => rw [hk] at hk'; cases hk'; exact absurd hB hne
      | field _ h => exact absurd h hst
      | _ => simp_all
  | false =>
    obtain ⟨k', j, hj, rfl⟩ := byKind_slice hb hk he hi
    have hB : ¬ ByteElem W.E e := fun h => by rw [(isByteElem_iff W.E e).mpr h] at he; cases he
    rcases repr_slice D.ready.types hk hp with ⟨rfl, -⟩ | ⟨d, vs, rfl, -, -, hall⟩
    · refine judged_parts hb (by simp [hk]) (by simp [hk]) (by simp [hk]) (fun _ t' ca' v' h1 => ?_) _
      cases h1 with
      | field _ h => exact absurd h hst
      | _ => simp_all
    · have hmem : ∀ x ∈ vs, ∃ p, Repr W.E H.mem e p x := fun x hx => by
        obtain ⟨i, hi⟩ := List.mem_iff_getElem?.mp hx
        exact ⟨_, hall i x hi⟩
      simp only [runV, execV, encodeArrayV, Bool.false_and, Bool.false_eq_true, if_false]
      by_cases h0 : vs.length = 0
      · rw [if_pos h0]
        refine judged_parts hb (by simp [hk]) (by simp [hk]) (by simp [hk]) (fun _ t' ca' v' h1 => ?_) _
        cases h1 with
        | slice _ hk' _ hm => rw [List.length_eq_zero_iff.mp h0] at hm; cases hm
        | field _ h => exact absurd h hst
      · rw [if_neg h0]
        rcases arrayV_stop (path := path) (ins := j) (pre_runV (W := W) (M := M) (o := o) (contract_long D.fmt) D.honest n) vs 0 [] with ⟨⟨b, h1⟩, h2⟩ | ⟨x, hx, path', h1⟩
        · rw [h1]
          refine judged_parts hb (by simp [hk]) (by simp [hk]) (by simp [hk]) (fun hpf t' ca' v' h3 => ?_) _
          cases h3 with
          | slice _ hk' _ hm =>
            rw [hk] at hk'; cases hk'
            obtain ⟨path', b', h4⟩ := h2 _ hm
            exact (ih n (Nat.le_refl _) e true false j _ path' ⟨_, hj⟩ (hmem _ hm)).ok _ h4 hpf
          | field _ h => exact absurd h hst
        · exact judged_stop (.slice hb hk hB hx) (ih n (Nat.le_refl _) e true false j _ path' ⟨_, hj⟩ (hmem _ hx)) h1

theorem judged_array (D : FaultReady W H M) {n : Nat} (ih : ∀ m, m ≤ n → JudgedAt W H M o m) (hb : ByKind W.E t ca) {l : Nat} {e : TId}
    (hk : (W.E t).kind = .array l e)
    (hx : ∃ p, Repr W.E H.mem t p v) {q : Bool} {i : Instr} {k : Nat} (hi : newInstruction W.E k t ca q = some i) (path : Path) :
    Judged W M o t ca v (runV W M o (n + 1) path i v []) := by
  have hst : ¬ IsStruct W.E t := struct_not hk (by simp)
  have hsp := hb.special
  obtain ⟨p, hp⟩ := hx
  obtain ⟨k', j, hj, rfl⟩ := byKind_array hb hk hi
  obtain ⟨vs, rfl, -, hall⟩ := repr_array D.ready.types hk hp
  have hmem : ∀ x ∈ vs, ∃ p, Repr W.E H.mem e p x := fun x hx => by
    obtain ⟨i, hi⟩ := List.mem_iff_getElem?.mp hx
    exact ⟨_, hall i x hi⟩
  simp only [runV, execV, encodeArrayV]
  by_cases hc : (isByteElem W.E e && bmHas o.flags .byteArrayAsString) = true
  · rw [if_pos hc]
    rw [Bool.and_eq_true, isByteElem_iff] at hc
    cases bytesOf vs with
    | none => exact judged_bad
    | some b =>
      refine judged_parts hb (by simp [hk]) (by simp [hk]) (by simp [hk]) (fun _ t' ca' v' h1 => ?_) _
      cases h1 with
      | array _ hk' hne => rw [hk] at hk'; cases hk'; exact absurd hc hne
      | field _ h => exact absurd h hst
  · rw [if_neg hc]
    have hB : ¬ (ByteElem W.E e ∧ bmHas o.flags .byteArrayAsString = true) := fun h => hc (by
      rw [Bool.and_eq_true, isByteElem_iff]; exact h)
    rcases arrayV_stop (path := path) (ins := j) (pre_runV (W := W) (M := M) (o := o) (contract_long D.fmt) D.honest n) vs 0 [] with ⟨⟨b, h1⟩, h2⟩ | ⟨x, hx, path', h1⟩
    · rw [h1]
      refine judged_parts hb (by simp [hk]) (by simp [hk]) (by simp [hk]) (fun hpf t' ca' v' h3 => ?_) _
      cases h3 with
      | array _ hk' _ hm =>
        rw [hk] at hk'; cases hk'
        obtain ⟨path', b', h4⟩ := h2 _ hm
        exact (ih n (Nat.le_refl _) e ca false j _ path' ⟨_, hj⟩ (hmem _ hm)).ok _ h4 hpf
      | field _ h => exact absurd h hst
    · exact judged_stop (.array hb hk hB hx) (ih n (Nat.le_refl _) e ca false j _ path' ⟨_, hj⟩ (hmem _ hx)) h1

theorem judged_map (D : FaultReady W H M) {n : Nat} (ih : ∀ m, m ≤ n → JudgedAt W H M o m) (hb : ByKind W.E t ca) {kt et : TId}
    (hk : (W.E t).kind = .map kt et)
    (hx : ∃ p, Repr W.E H.mem t p v) {q : Bool} {i : Instr} {k : Nat} (hi : newInstruction W.E k t ca q = some i) (path : Path) :
    Judged W M o t ca v (runV W M o (n + 1) path i v []) := by
  have hst : ¬ IsStruct W.E t := struct_not hk (by simp)
  have hsp := hb.special
  obtain ⟨p, hp⟩ := hx
  cases hm : mapKeyOk W.E kt with
  | false =>
    have := byKind_badMap hb hk hm hi
    subst this
    exact judged_fault (.typ hb (.inr ⟨kt, et, hk, fun h => by rw [(mapKeyOk_iff W.E kt).mpr h] at hm; cases hm⟩))
  | true =>
    have hkt := (mapKeyOk_iff W.E kt).mp hm
    obtain ⟨k', ki, vi, hki, hvi, rfl⟩ := byKind_map hb hk hm hi
    have hf : ∀ e, ¬ Fault W M o t ca v e := fun e he => by
      rcases fault_byKind hb he with ⟨w, b, h, -⟩ | h | ⟨k, e, h, hno⟩
      · rw [hk] at h; cases h
      · rw [hk] at h; cases h
      · rw [hk] at h; cases h; exact hno hkt
    rcases repr_map D.ready.types hk hp with ⟨rfl, -⟩ | ⟨a, es, kvs, rfl, -, -, -, hlen, h1, h2⟩
    · refine judged_ok fun _ => ⟨hf, fun ht => ?_, fun t' ca' v' h1 => ?_⟩
      · cases ht with
        | method _ hp => exact absurd hb (picks_byKind hp)
      · cases h1 with
        | field _ h => exact absurd h hst
        | _ => simp_all
    · have hmem : ∀ kv ∈ kvs, (∃ p, Repr W.E H.mem kt p kv.1) ∧ ∃ p, Repr W.E H.mem et p kv.2 := fun kv hkv => by
        obtain ⟨i, hi⟩ := List.mem_iff_getElem?.mp hkv
        have hil : i < es.length := by
          have := (List.getElem?_eq_some_iff.mp hi).1
          omega
        exact ⟨⟨_, h1 i es[i] kv (List.getElem?_eq_getElem hil) hi⟩, ⟨_, h2 i es[i] kv (List.getElem?_eq_getElem hil) hi⟩⟩
      simp only [runV, execV]
      by_cases h0 : kvs.length = 0
      · rw [if_pos h0]
        rw [List.length_eq_zero_iff] at h0
        subst h0
        refine judged_ok fun _ => ⟨hf, fun ht => ?_, fun t' ca' v' h1 => ?_⟩
        · cases ht with
          | method _ hp => exact absurd hb (picks_byKind hp)
          | key _ _ _ _ hm => cases hm
        · cases h1 with
          | field _ h => exact absurd h hst
          | key _ _ _ _ _ hm => cases hm
          | elem _ _ _ hm => cases hm
      · rw [if_neg h0]
        have hpre := pre_runV (W := W) (M := M) (o := o) (contract_long D.fmt) D.honest n
        have hv : ∀ m kv, kv ∈ kvs → Judged W M o et false kv.2 (runV W M o n ((2 * m + 1) :: path) vi kv.2 []) := fun m kv hkv =>
          ih n (Nat.le_refl _) et false false vi _ _ ⟨_, hvi⟩ (hmem kv hkv).2
        have hkj := fun m (kv : Val × Val) (hkv : kv ∈ kvs) => judged_key (o := o) D ih hki (hmem kv hkv).1 ((2 * m) :: path)
        rcases entries_stop (W := W) (o := o) (kf := fun m (e : Val × Val) dst => runV W M o n ((2 * m) :: path) (wrapKey W.E kt ki) e.1 dst)
          (vf := fun m e dst => runV W M o n ((2 * m + 1) :: path) vi e.2 dst)
          (fun m e => hpre _ _ _) (fun m e => hpre _ _ _) (W.visit path kvs) [] with ⟨⟨b, hok⟩, hall⟩ | ⟨a, ha, m, hst'⟩
        · rw [hok]
          have hmv : ∀ kv ∈ kvs, kv ∈ W.visit path kvs := fun kv h => (visit_perm D.order path kvs).mem_iff.mpr h
          refine judged_ok fun hpf => ⟨hf, fun ht => ?_, fun t' ca' v' he => ?_⟩
          · cases ht with
            | method _ hp => exact absurd hb (picks_byKind hp)
            | key _ hk' hns hu hkv hsk =>
              rw [hk] at hk'; cases hk'
              obtain ⟨m, k, x, hk1, -, hl⟩ := hall _ (hmv _ hkv)
              have := (hkj m _ hkv).long _ hk1 hpf hns hsk
              have := hl hu
              omega
          · cases he with
            | field _ h => exact absurd h hst
            | key _ hk' _ hns hne hkv =>
              rw [hk] at hk'; cases hk'
              obtain ⟨m, k, x, hk1, -⟩ := hall _ (hmv _ hkv)
              exact (hkj m _ hkv).clean _ hk1 hpf hns hne
            | elem _ hk' _ hkv =>
              rw [hk] at hk'; cases hk'
              obtain ⟨m, k, x, -, hx1, -⟩ := hall _ (hmv _ hkv)
              exact (hv m _ hkv).ok _ hx1 hpf
        · have ha' := visit_mem ha
          generalize encodeEntries W o _ _ (W.visit path kvs) [] = res at hst'
          dsimp only at hst'
          rcases hst' with hs | hs | ⟨hu, rfl, b, hk1, hl⟩
          · rcases (hkj m a ha').stop (fun b hb => by rw [hb] at hs; cases hs) with hnf | ⟨a1, a2, a3⟩
            · rw [hnf] at hs; cases hs; exact judged_nofuel
            · exact judged_stop (.key hb hk hkt a1 a2 ha') a3 hs
          · exact judged_stop (.elem hb hk hkt ha') (hv m a ha') hs
          · obtain ⟨a1, a2⟩ := (hkj m a ha').short _ hk1 hl
            exact judged_trap (.key hb hk a1 hu ha' a2)

theorem struct_fields (R : Ready W H M) (hst : IsStruct W.E t) {p : Loc} (hp : Repr W.E H.mem t p v) {flds : List FInstr}
    (hflds : structFieldsInstr W.E W.U W.grow W.sort W.tfuel t ca = some flds) :
    ∃ (fl : List Fld) (g : Fld → MField), flds.map FInstr.fld = fl ∧ MembersOf W.U.isLetter W.U.isDigit W.E t (fl.map g) ∧
      (∀ f ∈ fl, Behind W.E f (g f)) ∧
      ∀ f ∈ flds, (fieldV o f v = some none ∧ LeftOut o v (g f.fld)) ∨ ∃ x, fieldV o f v = some (some x) ∧
        ¬ LeftOut o v (g f.fld) ∧ FieldAt v (g f.fld).path x ∧ (∃ p', Repr W.E H.mem (g f.fld).decl.typ p' x) ∧
        ∃ q', ∃ k', newInstruction W.E k' (g f.fld).decl.typ ca q' = some f.instr := by
  obtain ⟨fl, hsf, hmap, hok⟩ := structFieldsInstr_ok hflds
  obtain ⟨hfld, hnew⟩ := mapM_fld hmap
  obtain ⟨g, hmem, hbeh⟩ := members_of R.tab R.sort (R.apart t) hsf
  have hroute := structFields_route R.tab (R.apart t) R.sort hsf
  have hspec : ∀ f ∈ flds, (fieldV o f v = some none ∧ LeftOut o v (g f.fld)) ∨ ∃ x, fieldV o f v = some (some x) ∧
      ¬ LeftOut o v (g f.fld) ∧ FieldAt v (g f.fld).path x ∧ (∃ p', Repr W.E H.mem (g f.fld).decl.typ p' x) ∧
      ∃ q', ∃ k', newInstruction W.E k' (g f.fld).decl.typ ca q' = some f.instr := by
    intro f hf
    have hfl : f.fld ∈ fl := by rw [← hfld]; exact List.mem_map_of_mem hf
    obtain ⟨hb', u, i, hpr⟩ := hbeh f.fld hfl
    obtain ⟨-, ftyp, hfo⟩ := hok f hf
    obtain ⟨ftyp', g1, g2, g3, g4, g5, g6⟩ := newFieldInstr_inv (hnew f hf)
    have hty : (g f.fld).decl.typ = ftyp' := by have := promoted_type hst hpr; rw [g1] at this; simpa using this.symm
    have hsp := fieldLoc_spec (o := o) R hp hst hb' (hnew f hf) (hroute _ hfl) hpr
    have heq := fieldLoc_eq (o := o) R hp hst hfo (hroute _ hfl)
    rcases hsp with ⟨e1, e2⟩ | ⟨l', x, e1, e2, e3, e4, -⟩
    · left
      rcases heq with ⟨z1, z2⟩ | ⟨z1, z2⟩ | ⟨_, _, z1, z2, -⟩
      · rw [e1] at z1; cases z1
      · exact ⟨z2, e2⟩
      · rw [e1] at z1; cases z1
    · right
      rcases heq with ⟨z1, z2⟩ | ⟨z1, z2⟩ | ⟨_, y, z1, z2, -⟩
      · rw [e1] at z1; cases z1
      · rw [e1] at z1; cases z1
      · have : y = x := by
          have h1 := fieldAt_iff.mp e3
          have h2 := fieldV_route z2
          rw [← hb'.path, h1] at h2
          exact (Option.some.inj (Option.some.inj h2)).symm
        subst this
        exact ⟨y, z2, e2, e3, ⟨_, e4⟩, _, _, hty ▸ g6⟩
  exact ⟨fl, g, hfld, hmem, fun f hf => (hbeh f hf).1, hspec⟩

theorem judged_struct (D : FaultReady W H M) {n : Nat} (ih : ∀ m, m ≤ n → JudgedAt W H M o m) (hb : ByKind W.E t ca) (hs : IsStruct W.E t)
    (hx : ∃ p, Repr W.E H.mem t p v) {q : Bool} {i : Instr} {k : Nat} (hi : newInstruction W.E k t ca q = some i) (path : Path) :
    Judged W M o t ca v (runV W M o (n + 1) path i v []) := by
  have R := D.ready
  have hsp := hb.special
  have hst := hs
  obtain ⟨fs, hk⟩ := hs
  have hk0 : (W.E t).kind = .struct fs := hk
  obtain ⟨p, hp⟩ := hx
  have := byKind_struct hb hk hi
  subst this
  have key : ∀ t' ca' v', Encodes1 W o t ca v t' ca' v' → ∃ m x, ChosenField W.U.isLetter W.U.isDigit W.E t m ∧ ¬ LeftOut o v m ∧
      FieldAt v m.path x ∧ t' = m.decl.typ ∧ ca' = ca ∧ v' = x := by
    intro t' ca' v' h
    cases h with
    | field _ _ h1 h2 h3 => exact ⟨_, _, h1, h2, h3, rfl, rfl, rfl⟩
    | _ => simp_all
  simp only [runV, execV]
  split
  · next h0 =>
    rw [hk0] at h0
    simp only [fieldsOfK, List.length_eq_zero_iff] at h0
    subst h0
    have hm0 := membersOf_empty (letter := W.U.isLetter) (digit := W.U.isDigit) hk
    refine judged_parts hb (by simp [hk0]) (by simp [hk0]) (by simp [hk0]) (fun _ t' ca' v' h1 => ?_) _
    obtain ⟨m, x, hc, -⟩ := key _ _ _ h1
    cases (hm0.2 m).mpr hc
  · split
    · exact judged_nofuel
    · next flds hflds =>
      obtain ⟨fl, g, hfld, hmem, -, hspec⟩ := struct_fields (o := o) R hst hp hflds
      have hpre := pre_runV (W := W) (M := M) (o := o) (contract_long D.fmt) D.honest n
      rcases structV_stop (o := o) (path := path) (v := v) hpre flds 0 true [] with ⟨⟨b, h1⟩, h2⟩ | ⟨f, hf, x, hfx, path', h1⟩ | h1
      · rw [h1]
        refine judged_parts hb (by simp [hk0]) (by simp [hk0]) (by simp [hk0]) (fun hpf t' ca' v' h3 => ?_) _
        obtain ⟨m, x, hc, hno, hat, rfl, rfl, rfl⟩ := key _ _ _ h3
        have hm := (hmem.2 m).mpr hc
        obtain ⟨f0, hf0, rfl⟩ := List.mem_map.mp hm
        rw [← hfld] at hf0
        obtain ⟨f, hf, rfl⟩ := List.mem_map.mp hf0
        rcases hspec f hf with ⟨-, z⟩ | ⟨y, z1, z2, z3, z4, q', z5⟩
        · exact absurd z hno
        · have : y = v' := by
            have a1 := fieldAt_iff.mp z3
            have a2 := fieldAt_iff.mp hat
            rw [a1] at a2; cases a2; rfl
          subst this
          obtain ⟨path', b', h4⟩ := h2 f hf _ z1
          exact (ih n (Nat.le_refl _) _ _ q' _ _ path' z5 z4).ok _ h4 hpf
      · rcases hspec f hf with ⟨z, -⟩ | ⟨y, z1, z2, z3, z4, q', z5⟩
        · rw [hfx] at z; cases z
        · rw [hfx] at z1; cases z1
          have hc : ChosenField W.U.isLetter W.U.isDigit W.E t (g f.fld) :=
            (hmem.2 _).mp (List.mem_map_of_mem (by rw [← hfld]; exact List.mem_map_of_mem hf))
          exact judged_stop (.field hb hst hc z2 z3) (ih n (Nat.le_refl _) _ _ q' _ _ path' z5 z4) h1
      · rw [h1]; exact judged_bad

theorem judged_basicQ (D : FaultReady W H M) (hb : ByKind W.E t ca) (hk : isBasicK (W.E t).kind = true) (hv : HasType W.E t v)
    {q : Bool} {i : Instr} (hi : newBasicTypeInstr (W.E t).kind q = some i) (n : Nat) (path : Path) : Judged W M o t ca v (runV W M o (n + 1) path i v []) := by
  have G := D.ready.types
  cases q with
  | false => exact judged_basic G D.fmt hb hk hv hi n path
  | true =>
    have : (∃ j, newBasicTypeInstr (W.E t).kind false = some j ∧ i = .quoted j) ∨ ((W.E t).kind = .string ∧ i = .quotedString) := by
      revert hk hi
      cases (W.E t).kind <;> simp [isBasicK, isInteger, newBasicTypeInstr] <;> intro h <;> simp [h]
    rcases this with ⟨j, hj, rfl⟩ | ⟨hk', rfl⟩
    · cases n with
      | zero => exact judged_nofuel
      | succ n =>
        refine judged_like (judged_basic G D.fmt hb hk hv hj n path) ?_
        rcases quotes_like (path := path) (i := j) (x := v) (pre_runV (W := W) (M := M) (o := o) (contract_long D.fmt) D.honest (n + 1) path j v) with ⟨b, b', h1, h2, -⟩ | h
        · exact .inl ⟨b, b', h1, h2⟩
        · exact .inr h
    · obtain ⟨x, rfl⟩ := has_str G hk' hv
      exact judged_plain hb hk (by simp) _

/-! ## All values -/

theorem judged_upto (D : FaultReady W H M) : ∀ n, ∀ m, m ≤ n → JudgedAt W H M o m := by
  intro n
  induction n with
  | zero =>
    intro m hm
    have : m = 0 := by omega
    subst this
    intro t ca q i v path _ _
    exact judged_nofuel
  | succ n ih =>
    intro m hm
    by_cases hmn : m ≤ n
    · exact ih m hmn
    have : m = n + 1 := by omega
    subst this
    intro t ca q i v path ⟨k, hi⟩ ⟨p, hp⟩
    have G := D.ready.types
    have hv := repr_hasType hp
    cases hs : (W.E t).special with
    | some s =>
      have := special_made hs hi
      subst this
      have e : runV W M o (n + 1) path (.goType s) v [] = encodeSpecialV W o (runV W M o n) path s v [] := rfl
      rw [e]
      cases s with
      | syncMap =>
        obtain ⟨es, kvs, rfl, -, hlen, h1, h2⟩ := repr_smap G hs hp
        have hmem : ∀ kv ∈ kvs, (∃ e, ReprE W.E H.mem e kv.1) ∧ ∃ e, ReprE W.E H.mem e kv.2 := fun kv hkv => by
          obtain ⟨i, hi⟩ := List.mem_iff_getElem?.mp hkv
          have hil : i < es.length := by
            have := (List.getElem?_eq_some_iff.mp hi).1
            omega
          exact ⟨⟨_, h1 i es[i] kv (List.getElem?_eq_getElem hil) hi⟩, ⟨_, h2 i es[i] kv (List.getElem?_eq_getElem hil) hi⟩⟩
        exact judged_smap D ih hs (fun kv h => (hmem kv h).1) (fun kv h => (hmem kv h).2) path
      | time =>
        obtain ⟨x, rfl, -⟩ := repr_time G hs hp
        exact judged_time hs
      | duration =>
        obtain ⟨x, rfl, hx⟩ := has_int G (G.duration _ hs) hv
        cases x <;> simp [IntVal.kind] at hx
        exact judged_duration D.fmt hs
      | number =>
        obtain ⟨x, rfl⟩ := has_str G (G.number _ hs) hv
        exact judged_number hs
      | rawMessage =>
        simp only [encodeSpecialV]
        cases byteSliceOf v with
        | none => exact judged_bad
        | some b => exact judged_raw hs _
    | none =>
      rcases picks_or_byKind (ca := ca) hs with hb | ⟨m, hpk⟩
      rotate_left
      · have := picks_made hs hpk hi
        subst this
        exact judged_meth G D.valid hs hpk hv n path
      · cases hk : (W.E t).kind with
        | ptr e => exact judged_ptr D ih hb hk ⟨p, hp⟩ hi path
        | iface e => exact judged_iface D ih hb hk ⟨p, hp⟩ hi path
        | slice e => exact judged_slice D ih hb hk ⟨p, hp⟩ hi path
        | array l e => exact judged_array D ih hb hk ⟨p, hp⟩ hi path
        | map kt et => exact judged_map D ih hb hk ⟨p, hp⟩ hi path
        | struct fs => exact judged_struct D ih hb ⟨fs, hk⟩ ⟨p, hp⟩ hi path
        | other =>
          have := byKind_other hb hk hi
          subst this
          exact judged_fault (.typ hb (.inl hk))
        | bool =>
          have hkk : isBasicK (W.E t).kind = true := by rw [hk]; rfl
          exact judged_basicQ D hb hkk hv (byKind_basic hb hkk hi) n path
        | int =>
          have hkk : isBasicK (W.E t).kind = true := by rw [hk]; rfl
          exact judged_basicQ D hb hkk hv (byKind_basic hb hkk hi) n path
        | float =>
          have hkk : isBasicK (W.E t).kind = true := by rw [hk]; rfl
          exact judged_basicQ D hb hkk hv (byKind_basic hb hkk hi) n path
        | string =>
          have hkk : isBasicK (W.E t).kind = true := by rw [hk]; rfl
          exact judged_basicQ D hb hkk hv (byKind_basic hb hkk hi) n path

end Jettison.Proofs
