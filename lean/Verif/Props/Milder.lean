import Verif.Spec.Milder
import Verif.Props.TrimEx
import Verif.Proofs.Options

/-!
# C79: which options can be the reason for a failure

A call that succeeds still does with settings that are no stricter (`NoStricter`, Spec/Milder), so with any
options added but `UnixTime`, durations in minutes or seconds, `WithContext` and second lists of members.
-/

namespace Jettison.Props
open Jettison Jettison.Model Jettison.Spec Jettison.Proofs

variable {W : World} {M : MethV} {o o' : EncOpts} {t : TId} {ca : Bool} {v : Val}

theorem _root_.Jettison.Spec.NoStricter.off (f : Flag) (h : bmHas o.flags f = true → bmHas o'.flags f = true) (h' : bmHas o'.flags f = false) : bmHas o.flags f = false := by
  cases e : bmHas o.flags f with
  | false => rfl
  | true => rw [h e] at h'; cases h'

theorem _root_.Jettison.Spec.NoStricter.argCtx (S : NoStricter o o') (m : MethKind) : argCtx o m = argCtx o' m := by
  cases m <;> first | rfl | exact S.ctx

theorem _root_.Jettison.Spec.NoStricter.encodes (S : NoStricter o o') {t' : TId} {ca' : Bool} {v' : Val} (h : Encodes W o' t ca v t' ca' v') :
    Encodes W o t ca v t' ca' v' := by
  induction h with
  | refl => exact .refl
  | step h1 _ ih =>
    refine .step ?_ ih
    cases h1 with
    | ptr h1 h2 => exact .ptr h1 h2
    | iface h1 h2 => exact .iface h1 h2
    | slice h1 h2 h3 h4 => exact .slice h1 h2 h3 h4
    | array h1 h2 h3 h4 => exact .array h1 h2 (fun h => h3 ⟨h.1, S.bytes h.2⟩) h4
    | key h1 h2 h3 h4 h5 h6 => exact .key h1 h2 h3 h4 h5 h6
    | elem h1 h2 h3 h4 => exact .elem h1 h2 h3 h4
    | field h1 h2 h3 h4 h5 => exact .field h1 h2 h3 (fun h => h4 (h.imp (S.lists _) id)) h5
    | skey h1 h2 h3 h4 h5 => exact .skey h1 h2 h3 h4 h5
    | selem h1 h2 h3 => exact .selem h1 h2 h3

theorem _root_.Jettison.Spec.NoStricter.fault (S : NoStricter o o') {e : Err} (h : Fault W M o' t ca v e) : Fault W M o t ca v e := by
  cases h with
  | float h1 h2 h3 => exact .float h1 h2 h3
  | seconds h1 h2 h3 => exact .seconds h1 (S.seconds h2) h3
  | minutes h1 h2 h3 => exact .minutes h1 (S.minutes h2) h3
  | number h1 h2 h3 h4 => exact .number h1 (NoStricter.off _ S.number h2) h3 h4
  | time h1 h2 => exact .time h1 h2
  | typ h1 h2 => exact .typ h1 h2
  | method h1 h2 h3 h4 => exact .method h1 h2 h3 (by rw [S.argCtx]; exact h4)
  | malformed h1 h2 h3 h4 h5 h6 => exact .malformed h1 h2 h3 h4 (NoStricter.off _ S.compact h5) h6
  | nilKey h1 h2 h3 => exact .nilKey h1 h2 h3
  | badKey h1 h2 h3 h4 => exact .badKey h1 h2 h3 h4

/-- The only JSON texts of less than two bytes are digits. -/
theorem short_json {j : Json} {b : Bytes} (h : JsonText j b) (hl : b.length < 2) : ∃ lit, JsonText (.num lit) b ∧ lit.length < 2 := by
  obtain ⟨w1, s, w2, g1, g2, g3, rfl⟩ := h
  have hs : s.length < 2 := by simp only [List.length_append] at hl; omega
  generalize hx : Nt.val j = x at g3
  cases g3 with
  | num _ hn => exact ⟨s, ⟨w1, s, w2, g1, g2, .num _ hn, rfl⟩, hs⟩
  | _ => first
    | cases hx; done
    | (exfalso; revert hs; first | decide | (simp [strToken]; done) | (simp; done) | (simp; omega))

/-- A key too short under the one settings is too short, or not JSON, under the other. -/
theorem _root_.Jettison.Spec.NoStricter.shortKey (S : NoStricter o o') (h : ShortKey W M o' t ca v) :
    ShortKey W M o t ca v ∨ ((W.E t).meths.text = true ∧ (IsPtr W.E t → v ≠ .nil) ∧ ∃ e, Fault W M o t ca v e) := by
  cases h with
  | time h1 h2 h3 h4 h5 h6 => exact .inl (.time h1 h2 (S.unix h3) h4 h5 h6)
  | append h1 h2 h3 h4 h5 h6 h7 => exact .inl (.append h1 h2 h3 h4 h5 (by rw [S.argCtx]; exact h6) h7)
  | verbatim h1 h2 h3 h4 h5 h6 h7 =>
    rename_i b _
    cases e : bmHas o.flags .noCompact with
    | true => exact .inl (.verbatim h1 h2 h3 h4 h5 e h7)
    | false =>
      by_cases hj : ∃ j, JsonText j b
      · obtain ⟨j, hj⟩ := hj
        obtain ⟨lit, g1, g2⟩ := short_json hj h7
        exact .inl (.json h1 h2 h3 h4 h5 e g1 g2)
      · exact .inr ⟨h1, fun hp hn => by subst hn; exact receives_nil' hp h3 h4, _, .malformed h2 h3 h4 h5 e fun j g => hj ⟨j, g⟩⟩
  | json h1 h2 h3 h4 h5 h6 h7 h8 => exact .inl (.json h1 h2 h3 h4 h5 (NoStricter.off _ S.compact h6) h7 h8)

theorem encodes_snoc {t' t'' : TId} {ca' ca'' : Bool} {v' v'' : Val} (h : Encodes W o t ca v t' ca' v') (h' : Encodes1 W o t' ca' v' t'' ca'' v'') :
    Encodes W o t ca v t'' ca'' v'' := by
  induction h with
  | refl => exact .step h' .refl
  | step h1 _ ih => exact .step h1 (ih h')

/-- What is free of faults stays so. -/
theorem _root_.Jettison.Spec.NoStricter.faultless (S : NoStricter o o') (h : Faultless W M o t v) : Faultless W M o' t v := by
  intro t' ca' v' he
  obtain ⟨h1, h2⟩ := h t' ca' v' (S.encodes he)
  refine ⟨fun e hf => h1 e (S.fault hf), fun ht => ?_⟩
  have deep : ∀ {d ca'' x e}, Encodes1 W o t' ca' v' d ca'' x → ¬ Fault W M o d ca'' x e := fun g gf =>
    (h _ _ _ (encodes_snoc (S.encodes he) g)).1 _ gf
  cases ht with
  | nilElem g1 g2 g3 => exact h2 (.nilElem g1 g2 g3)
  | method g1 g2 g3 g4 => exact h2 (.method g1 g2 g3 (by rw [S.argCtx]; exact g4))
  | key g1 g2 g3 g4 g5 g6 =>
    cases S.shortKey g6 with
    | inl g => exact h2 (.key g1 g2 g3 (NoStricter.off _ S.sorted g4) g5 g)
    | inr g =>
      obtain ⟨k1, k2, er, k3⟩ := g
      exact deep (.key g1 g2 (.inr (.inr k1)) g3 (fun _ => k2) g5) k3
  | skey g1 g2 g3 g4 g5 g6 =>
    cases S.shortKey g6 with
    | inl g => exact h2 (.skey g1 (NoStricter.off _ S.sorted g2) g3 g4 g5 g)
    | inr g =>
      obtain ⟨k1, k2, er, k3⟩ := g
      exact deep (.skey g1 g3 g4 (.inr (.inr k1)) g5) k3

/-- C79: a call that succeeds still does with settings that are no stricter. -/
theorem C79_success {g n : Nat} {S : List TId} {c : Call} (hc : FiniteCall W g n c S M) (D : FaultReady (c.world W) c.heap M) (hP : PathFree M) {w : Addr}
    (hv : c.value = some (t, w)) (hx : ReprE W.E c.heap.mem (some (t, w)) (.iface t v)) {opts opts' : List (Option Opt)} (ho : prepare opts = .ok o)
    (ho' : prepare opts' = .ok o') (hS : NoStricter o o') {n0 : Nat} {r : Option Bytes}
    (h : marshalOpts (c.world W) c.heap n0 (some (t, w)) opts = .ret r none) :
    ∃ b', marshalOpts (c.world W) c.heap n (some (t, w)) opts' = .ret (some b') none :=
  (C51_iff hc D hP hv hx ho').mpr (hS.faultless (W := c.world W) (C51_noticed D hP hx ho n0 [] (.inl ⟨_, h⟩)))

/-- C79: so for `Append`, whatever the destination. -/
theorem C79_append {g n : Nat} {S : List TId} {c : Call} (hc : FiniteCall W g n c S M) (D : FaultReady (c.world W) c.heap M) (hP : PathFree M) {w : Addr}
    (hv : c.value = some (t, w)) (hx : ReprE W.E c.heap.mem (some (t, w)) (.iface t v)) {opts opts' : List (Option Opt)} (ho : prepare opts = .ok o)
    (ho' : prepare opts' = .ok o') (hS : NoStricter o o') {n0 : Nat} {dst : Bytes} {r : Option Bytes}
    (h : appendOpts (c.world W) c.heap n0 dst (some (t, w)) opts = .ret r none) (dst' : Bytes) :
    ∃ b', appendOpts (c.world W) c.heap n dst' (some (t, w)) opts' = .ret (some (dst' ++ b')) none := by
  have hF := hS.faultless (W := c.world W) (C51_noticed D hP hx ho n0 dst (.inr ⟨_, h⟩))
  obtain ⟨b, h1⟩ := (C51_iff hc D hP hv hx ho').mpr hF
  obtain ⟨b', -, h2⟩ := C51_success D hx ho' n dst' (by rw [h1]; intro h; cases h) hF
  exact ⟨b', h2⟩

/-- C79: an error with settings that are no stricter is about a part that is encoded with the stricter
ones too, and has the same error with them. -/
theorem C79_error {H : Heap} (D : FaultReady W H M) {w : Addr} (hx : ReprE W.E H.mem (some (t, w)) (.iface t v)) {opts' : List (Option Opt)}
    (ho' : prepare opts' = .ok o') (hS : NoStricter o o') {n : Nat} {r : Option Bytes} {e : Err}
    (h : marshalOpts W H n (some (t, w)) opts' = .ret r (some (.encoding e))) :
    ∃ t' ca' v', Encodes W o t (isPtrK (W.E t).kind) v t' ca' v' ∧ Fault W M o t' ca' v' e := by
  obtain ⟨t', ca', v', h1, h2⟩ := C51_cause D hx ho' n [] (.inl ⟨_, h⟩)
  exact ⟨t', ca', v', hS.encodes h1, hS.fault h2⟩

/-! ## Adding options -/

theorem _root_.Jettison.Spec.NoStricter.refl (o : EncOpts) : NoStricter o o := ⟨rfl, id, id, id, id, id, id, id, fun _ => id⟩

theorem _root_.Jettison.Spec.NoStricter.trans {a b c : EncOpts} (h : NoStricter a b) (h' : NoStricter b c) : NoStricter a c :=
  ⟨h.ctx.trans h'.ctx, h'.number ∘ h.number, h'.compact ∘ h.compact, h'.sorted ∘ h.sorted, h'.bytes ∘ h.bytes, h.unix ∘ h'.unix, h.seconds ∘ h'.seconds,
    h.minutes ∘ h'.minutes, fun n => h'.lists n ∘ h.lists n⟩

theorem validate_iff : o.validate = none ↔ o.ctx ≠ none ∧ o.timeLayout ≠ [] ∧ durationFmtValid o.durationFmt = true := by
  unfold EncOpts.validate
  by_cases h1 : o.ctx = none
  · simp [h1]
  · by_cases h2 : o.timeLayout = []
    · simp [h1, h2]
    · cases h3 : durationFmtValid o.durationFmt <;> simp [h1, h2]

theorem mild_run {f : Opt} (hf : Mild (some f)) (o : EncOpts) : NoStricter o (f.run o) ∧ (o.validate = none → (f.run o).validate = none) := by
  cases hf with
  | @flag f hf =>
    have up : ∀ g, bmHas o.flags g = true → bmHas (bmSet o.flags f) g = true := fun g h => by rw [bmHas_set, h]; rfl
    refine ⟨⟨rfl, up _, up _, up _, up _, fun h => ?_, id, id, fun _ => id⟩, id⟩
    rw [show (Opt.run (.flag f) o).flags = bmSet o.flags f from rfl, bmHas_set] at h
    simpa [hf] using h
  | layout hl =>
    refine ⟨⟨rfl, id, id, id, id, id, id, id, fun _ => id⟩, fun h => ?_⟩
    obtain ⟨h1, -, h3⟩ := validate_iff.mp h
    exact validate_iff.mpr ⟨h1, hl, h3⟩
  | @duration d hd =>
    refine ⟨⟨rfl, id, id, id, id, id, fun h => ?_, fun h => ?_, fun _ => id⟩, fun h => ?_⟩
    · rcases hd with rfl | rfl | rfl | rfl <;> cases h
    · rcases hd with rfl | rfl | rfl | rfl <;> cases h
    · obtain ⟨h1, h2, -⟩ := validate_iff.mp h
      exact validate_iff.mpr ⟨h1, h2, by rcases hd with rfl | rfl | rfl | rfl <;> rfl⟩

theorem mild_apply (extra : List (Option Opt)) (hm : ∀ x ∈ extra, Mild x) (o : EncOpts) :
    NoStricter o (o.apply extra) ∧ (o.validate = none → (o.apply extra).validate = none) := by
  induction extra generalizing o with
  | nil => exact ⟨.refl o, id⟩
  | cons x l ih =>
    have ihl := ih (fun y hy => hm y (.tail _ hy))
    cases x with
    | none => exact ihl o
    | some f =>
      obtain ⟨h1, h2⟩ := mild_run (hm _ (.head _)) o
      exact ⟨h1.trans (ihl _).1, fun h => (ihl _).2 (h2 h)⟩

theorem apply_append (o : EncOpts) (l l' : List (Option Opt)) : o.apply (l ++ l') = (o.apply l).apply l' := by
  induction l generalizing o with
  | nil => rfl
  | cons x l ih => cases x <;> exact ih _

theorem prepare_iff {l : List (Option Opt)} : prepare l = .ok o ↔ o = defaultEncOpts.apply l ∧ (defaultEncOpts.apply l).validate = none := by
  unfold prepare
  split
  · simp only
    split
    · rename_i e he
      exact ⟨fun h => (by cases h), fun h => (by rw [h.2] at he; cases he)⟩
    · rename_i he
      exact ⟨fun h => (by cases h; exact ⟨rfl, he⟩), fun h => (by rw [h.1])⟩
  · have : l = [] := List.length_eq_zero_iff.mp (by omega)
    subst this
    exact ⟨fun h => (by cases h; exact ⟨rfl, by decide⟩), fun h => (by rw [h.1]; rfl)⟩

/-- C79: adding options that are mild leads to settings that are no stricter. -/
theorem C79_options {opts extra : List (Option Opt)} (ho : prepare opts = .ok o) (hm : ∀ x ∈ extra, Mild x) :
    ∃ o', prepare (opts ++ extra) = .ok o' ∧ NoStricter o o' := by
  obtain ⟨rfl, hv⟩ := prepare_iff.mp ho
  obtain ⟨h1, h2⟩ := mild_apply extra hm (defaultEncOpts.apply opts)
  exact ⟨_, prepare_iff.mpr ⟨rfl, by rw [apply_append]; exact h2 hv⟩, by rw [apply_append]; exact h1⟩

/-- C79: so a call that succeeds still does with mild options added. -/
theorem C79_adding {g n : Nat} {S : List TId} {c : Call} (hc : FiniteCall W g n c S M) (D : FaultReady (c.world W) c.heap M) (hP : PathFree M) {w : Addr}
    (hv : c.value = some (t, w)) (hx : ReprE W.E c.heap.mem (some (t, w)) (.iface t v)) {opts extra : List (Option Opt)} {n0 : Nat} {b : Bytes}
    (h : marshalOpts (c.world W) c.heap n0 (some (t, w)) opts = .ret (some b) none) (hm : ∀ x ∈ extra, Mild x) :
    ∃ b', marshalOpts (c.world W) c.heap n (some (t, w)) (opts ++ extra) = .ret (some b') none := by
  cases ho : prepare opts with
  | error e => simp only [marshalOpts, ho] at h; cases h
  | ok o =>
    obtain ⟨o', ho', hS⟩ := C79_options ho hm
    exact C79_success hc D hP hv hx ho ho' hS h

end Jettison.Props
