import Verif.Proofs.Judged
import Verif.Spec.Html

/-! # The bytes of the texts of values without parts -/

namespace Jettison.Proofs
open Jettison Jettison.Spec Jettison.Model Jettison.Props

/-- A byte that may stand anywhere. -/
def SafeByte (c : UInt8) : Prop := c.toNat < 0x80 ∧ c ≠ c! '<' ∧ c ≠ c! '>' ∧ c ≠ c! '&'

instance (c : UInt8) : Decidable (SafeByte c) := inferInstanceAs (Decidable (_ ∧ _))

/-- All bytes are safe. -/
def SafeText (b : Bytes) : Prop := ∀ c ∈ b, SafeByte c

instance (b : Bytes) : Decidable (SafeText b) := inferInstanceAs (Decidable (∀ c ∈ b, _))

theorem safe_append {a b : Bytes} (ha : SafeText a) (hb : SafeText b) : SafeText (a ++ b) := by
  intro c hc
  rcases List.mem_append.mp hc with h | h
  · exact ha c h
  · exact hb c h

theorem safe_cons {c : UInt8} {b : Bytes} (ha : SafeByte c) (hb : SafeText b) : SafeText (c :: b) := by
  intro x hx
  rcases List.mem_cons.mp hx with rfl | h
  · exact ha
  · exact hb x h

theorem safe_digit {c : UInt8} (h : IsDigit c) : SafeByte c := by
  have : ∀ c : UInt8, IsDigit c → SafeByte c := by
    refine forall_byte ?_
    decide +kernel
  exact this c h

theorem safe_digits {b : Bytes} (h : ∀ c ∈ b, IsDigit c) : SafeText b := fun c hc => safe_digit (h c hc)

theorem safe_intPart {b : Bytes} (h : IntPart b) : SafeText b := by
  rcases h with rfl | ⟨d, ds, rfl, h1, h2⟩
  · decide
  · refine safe_cons ?_ (safe_digits h2)
    have : ∀ c : UInt8, IsDigit19 c → SafeByte c := by
      refine forall_byte ?_
      decide +kernel
    exact this d h1

theorem safe_number {b : Bytes} (h : IsNumber b) : SafeText b := by
  obtain ⟨sg, i, f, e, rfl, hs, hi, hf, he⟩ := h
  refine safe_append ?_ (safe_append (safe_intPart hi) (safe_append ?_ ?_))
  · rcases hs with rfl | rfl <;> decide
  · rcases hf with rfl | ⟨ds, rfl, h⟩
    · decide
    · exact safe_cons (by decide) (safe_digits h.2)
  · rcases he with rfl | ⟨e, sg, ds, rfl, h1, h2, h3⟩
    · decide
    · refine safe_cons ?_ (safe_append ?_ (safe_digits h3.2))
      · rcases h1 with rfl | rfl <;> decide
      · rcases h2 with rfl | rfl | rfl <;> decide

theorem safe_int {b : Bytes} {i : Int} (h : IntLiteral b i) : SafeText b := by
  cases h with
  | nonneg _ h => exact safe_intPart h
  | neg s h _ => exact safe_cons (by decide) (safe_intPart h)

/-! ## Times -/

theorem safe_wr {i : Nat} {c : UInt8} {buf b : Bytes} (hb : SafeText buf) (hc : SafeByte c) (h : wr i c buf = some b) : SafeText b := by
  unfold wr at h
  split at h
  · cases h
    intro x hx
    rcases List.mem_or_eq_of_mem_set hx with h | h
    · exact hb x h
    · rw [h]; exact hc
  · cases h

theorem safe_ofNat (x : Nat) : SafeByte (UInt8.ofNat (x % 10) + 48) := by
  have : ∀ k : Fin 10, SafeByte (UInt8.ofNat k.val + 48) := by decide +kernel
  exact this ⟨x % 10, by omega⟩

theorem safe_wrDigits : ∀ {k hi x : Nat} {buf b : Bytes}, SafeText buf → wrDigits k hi x buf = some b → SafeText b
  | 0, _, _, _, _, hb, h => by cases h; exact hb
  | k + 1, hi, x, buf, b, hb, h => by
    simp only [wrDigits, Option.bind_eq_bind, Option.bind_eq_some_iff] at h
    obtain ⟨b1, h1, h2⟩ := h
    exact safe_wrDigits (safe_wr hb (safe_ofNat x) h1) h2

theorem safe_byteDigit {x : Int} (h1 : -9 ≤ x) (h2 : x ≤ 9) : SafeByte (byteDigit x) := by
  have : ∀ k : Fin 19, SafeByte (byteDigit ((k.val : Int) - 9)) := by decide +kernel
  have := this ⟨(x + 9).toNat, by omega⟩
  rwa [show (((x + 9).toNat : Nat) : Int) - 9 = x by omega] at this

theorem tmod_range (x : Int) {n : Int} (hn : 0 < n) : -(n - 1) ≤ x.tmod n ∧ x.tmod n ≤ n - 1 := by
  have h1 := Int.tmod_lt_of_pos x hn
  have h2 := Int.lt_tmod_of_pos x hn
  omega

theorem safe_mod10 (x : Int) : SafeByte (byteDigit (x.tmod 10)) := by
  have := tmod_range x (n := 10) (by omega)
  exact safe_byteDigit (by omega) (by omega)

theorem safe_mod6 (x : Int) : SafeByte (byteDigit (x.tmod 6)) := by
  have := tmod_range x (n := 6) (by omega)
  exact safe_byteDigit (by omega) (by omega)

theorem safe_putDateTime {t : GoTime} {b : Bytes} (h : putDateTime t = some b) : SafeText b := by
  unfold putDateTime at h
  simp only [Option.bind_eq_bind, Option.bind_eq_some_iff] at h
  obtain ⟨b1, h1, b2, h2, b3, h3, b4, h4, b5, h5, b6, h6, ⟨y, m, d⟩, -, b7, h7, h⟩ := h
  have g1 := safe_wr (by decide) (by decide) h1
  have g2 := safe_wr g1 (by decide) h2
  have g3 := safe_wr g2 (by decide) h3
  have g4 := safe_wr g3 (by decide) h4
  have g5 := safe_wr g4 (by decide) h5
  have g6 := safe_wr g5 (by decide) h6
  have g7 := safe_wrDigits g6 h7
  have tenth : ∀ x : Nat, SafeByte (UInt8.ofNat (x / 10 % 10) + 48) := fun x => safe_ofNat _
  obtain ⟨b8, h8, h⟩ := h
  have g8 := safe_wr g7 (safe_ofNat _) h8
  obtain ⟨b9, h9, h⟩ := h
  have g9 := safe_wr g8 (tenth _) h9
  obtain ⟨b10, h10, h⟩ := h
  have g10 := safe_wr g9 (safe_ofNat _) h10
  obtain ⟨b11, h11, h⟩ := h
  have g11 := safe_wr g10 (tenth _) h11
  obtain ⟨b12, h12, h⟩ := h
  have g12 := safe_wr g11 (safe_mod10 _) h12
  obtain ⟨b13, h13, h⟩ := h
  have g13 := safe_wr g12 (safe_mod6 _) h13
  obtain ⟨b14, h14, h⟩ := h
  have g14 := safe_wr g13 (safe_mod10 _) h14
  obtain ⟨b15, h15, h⟩ := h
  have g15 := safe_wr g14 (safe_mod6 _) h15
  obtain ⟨b16, h16, h⟩ := h
  have g16 := safe_wr g15 (safe_mod10 _) h16
  exact safe_wr g16 (safe_mod10 _) h

theorem safe_rfc3339 {t : GoTime} {nano : Bool} {b : Bytes} (h : appendRFC3339Time t [] nano = some b) : SafeText b := by
  simp only [appendRFC3339Time, Option.bind_eq_bind, Option.bind_eq_some_iff] at h
  obtain ⟨b1, h1, ⟨b2, n2⟩, h2, ⟨b3, n3⟩, h3, b4, h4, h⟩ := h
  have g1 := safe_putDateTime h1
  have g2 : SafeText b2 := by
    unfold putFrac at h2
    split at h2
    · simp only [Option.bind_eq_bind, Option.bind_eq_some_iff] at h2
      obtain ⟨c1, e1, c2, e2, e3⟩ := h2
      cases e3
      exact safe_wrDigits (safe_wr g1 (by decide) e1) e2
    · cases h2; exact g1
  have g3 : SafeText b3 := by
    unfold putZone at h3
    split at h3
    · simp only [Option.bind_eq_bind, Option.bind_eq_some_iff] at h3
      obtain ⟨c1, e1, e2⟩ := h3
      cases e2
      exact safe_wr g2 (by decide) e1
    · simp only [Option.bind_eq_bind, Option.bind_eq_some_iff] at h3
      obtain ⟨c1, e1, c2, e2, c3, e3, c4, e4, c5, e5, c6, e6, e7⟩ := h3
      cases e7
      have k1 := safe_wr g2 (by split <;> decide) e1
      have k2 := safe_wr k1 (by decide) e2
      have k3 := safe_wr k2 (safe_mod10 _) e3
      have k4 := safe_wr k3 (safe_mod6 _) e4
      have k5 := safe_wr k4 (safe_mod10 _) e5
      exact safe_wr k5 (safe_mod10 _) e6
  have g4 := safe_wr g3 (by decide) h4
  simp only [List.nil_append] at h
  cases h
  exact fun c hc => g4 c (List.mem_of_mem_take hc)

/-! ## Texts -/

/-- A property of texts that those written by the encoder itself have. -/
structure Letters (W : World) (o : EncOpts) (P : Bytes → Prop) : Prop where
  app : ∀ {a b}, P a → P b → P (a ++ b)
  safe : ∀ {b}, SafeText b → P b
  micro : P (b! "µs")
  str : ∀ s, P (appendEscapedBytes [] s o.esc)
  key : ∀ t m, ChosenField W.U.isLetter W.U.isDigit W.E t m → P (fieldKey o m.name)

/-- What is taken over for a part has the property. -/
structure Foreign (P : Bytes → Prop) (W : World) (M : MethV) (o : EncOpts) (t : TId) (ca : Bool) (v : Val) : Prop where
  taken : ∀ b, Taken W M o t ca v b → P b
  relayed : ∀ b, Relayed W M o t ca v b → P (appendCompactJSON [] b (!bmHas o.flags .noHTMLEscaping))

variable {W : World} {H : Heap} {M : MethV} {o : EncOpts} {P : Bytes → Prop} {t : TId} {ca : Bool} {v : Val}

theorem durText_letters (L : Letters W o P) {u : Nat} {x : Bytes} (h : DurText u x) : P x := by
  have hf : ∀ {f p r}, FracText f p r → P f := by
    rintro f p r (⟨rfl, _⟩ | ⟨a, d, rfl, _, h⟩)
    · exact L.safe (by decide)
    · exact L.safe (safe_cons (by decide) (safe_digits h.1))
  have hn : ∀ n, P (fmtNat n) := fun n => L.safe (safe_digits (fmtNat_digits n))
  cases h with
  | zero => exact L.safe (by decide)
  | small _ p f unit _ h1 h2 =>
    refine L.app (hn _) (L.app (hf h2) ?_)
    rcases h1 with ⟨_, rfl, _⟩ | ⟨_, rfl, _⟩ | ⟨_, rfl, _⟩
    · exact L.safe (by decide)
    · exact L.micro
    · exact L.safe (by decide)
  | secs _ f _ _ h2 => exact L.app (hn _) (L.app (hf h2) (L.safe (by decide)))
  | mins _ f _ _ h2 => exact L.app (hn _) (L.app (L.safe (by decide)) (L.app (hn _) (L.app (hf h2) (L.safe (by decide)))))
  | hours _ f _ h2 =>
    exact L.app (hn _) (L.app (L.safe (by decide)) (L.app (hn _) (L.app (L.safe (by decide)) (L.app (hn _) (L.app (hf h2) (L.safe (by decide)))))))

theorem int_letters (L : Letters W o P) (i : Int64) : P (appendInt [] i) := by
  obtain ⟨out, h1, h2⟩ := appendInt_lit [] i
  rw [h1]
  exact L.safe (safe_int h2)

theorem intVal_letters (L : Letters W o P) (i : IntVal) : P (encodeIntVal i []) := by
  have : ∀ u : UInt64, P (appendUint [] u) := fun u => L.safe (safe_digits (fmtNat_digits _))
  cases i <;> first | exact int_letters L _ | exact this _

theorem float_letters (L : Letters W o P) (hl : FormatContract W.fmt) {w : FWidth} {x : Nat} {b : Bytes} (h : appendFloat W.fmt [] w x = .ok b) : P b := by
  by_cases hf : IsFinite w x
  · obtain ⟨out, m, e, h1, -, h2, -⟩ := C09_finite W.fmt hl [] w x hf
    rw [h1] at h
    cases h
    exact L.safe (safe_number (numDenotes_isNumber h2))
  · rw [(C09_nonfinite W.fmt [] w x).mpr hf] at h; cases h

theorem duration_letters (L : Letters W o P) (hl : FormatContract W.fmt) {d : Int64} {b : Bytes}
    (h : encodeDuration W.fmt W.df d [] o.durFmt = .ok b) : P b := by
  have hF : ∀ {x : Nat}, (match appendFloat W.fmt [] .f64 x with | .ok b => BRes.ok b | .error _ => .err) = .ok b → P b := by
    intro x h
    cases ha : appendFloat W.fmt [] .f64 x with
    | error e => rw [ha] at h; cases h
    | ok c => rw [ha] at h; cases h; exact float_letters L hl ha
  cases hd : o.durFmt with
  | str =>
    rw [hd] at h
    simp only [encodeDuration] at h
    obtain ⟨x, h1, h2⟩ := appendDuration_text ([] ++ b! "\"") d
    rw [h1] at h
    cases h
    refine L.app (L.app (L.safe (by decide)) (L.app (L.safe (by split <;> decide)) (durText_letters L h2))) (L.safe (by decide))
  | nanoseconds => rw [hd] at h; cases h; exact int_letters L _
  | microseconds => rw [hd] at h; cases h; exact int_letters L _
  | milliseconds => rw [hd] at h; cases h; exact int_letters L _
  | seconds => rw [hd] at h; exact hF h
  | minutes => rw [hd] at h; exact hF h

theorem time_letters (L : Letters W o P) (hs : (W.E t).special = some .time) {x : GoTime} (F : Foreign P W M o t ca (.time x)) {b : Bytes}
    (h : encodeTime W.appendFormat x [] (bmHas o.flags .unixTime) o.layout = .ok b) : P b := by
  simp only [encodeTime] at h
  split at h
  · cases h
  · cases hu : bmHas o.flags .unixTime with
    | true => rw [hu] at h; cases h; exact int_letters L _
    | false =>
      rw [hu] at h
      simp only [Bool.false_eq_true, if_false] at h
      have hR : ∀ {nano : Bool}, (match appendRFC3339Time x [] nano with | some b => BRes.ok b | none => .panic) = .ok b → P b := by
        intro nano h
        cases ha : appendRFC3339Time x [] nano with
        | none => rw [ha] at h; cases h
        | some c => rw [ha] at h; cases h; exact L.safe (safe_rfc3339 ha)
      cases hl : o.layout with
      | rfc3339 => rw [hl] at h; exact hR h
      | rfc3339Nano => rw [hl] at h; exact hR h
      | other l =>
        rw [hl] at h
        cases h
        exact L.app (L.app (L.safe (by decide)) (F.taken _ (.layout hs hu hl))) (L.safe (by decide))

theorem number_letters (L : Letters W o P) (hs : (W.E t).special = some .number) {s : Bytes} (F : Foreign P W M o t ca (.str s)) {b : Bytes}
    (h : encodeNumber s [] (bmHas o.flags .noNumberValidation) = .ok b) : P b := by
  cases hf : bmHas o.flags .noNumberValidation with
  | true =>
    rw [hf] at h
    by_cases h0 : s = []
    · subst h0; cases h; exact L.safe (by decide)
    · rw [C07_no_validation _ _ h0] at h
      cases h
      exact F.taken _ (.number hs hf)
  | false =>
    rw [hf] at h
    rcases C07_encodeNumber s [] with ⟨h1, h2⟩ | ⟨h1, -⟩
    · rw [h1] at h
      cases h
      exact L.safe (safe_number h2)
    · rw [h1] at h; cases h

theorem raw_letters (L : Letters W o P) (hs : (W.E t).special = some .rawMessage) (F : Foreign P W M o t ca v) {x : Option Bytes}
    (hx : byteSliceOf v = some x) : P (encodeRawMessage x [] o) := by
  cases x with
  | none => exact L.safe (b := b! "null") (by decide)
  | some c =>
    obtain ⟨vs, rfl, hc⟩ : ∃ vs, v = .slice vs ∧ bytesOf vs = some c := by
      cases v <;> simp [byteSliceOf] at hx
      exact ⟨_, rfl, hx⟩
    have ha := asBytes_of hc
    simp only [encodeRawMessage, List.nil_append]
    cases hn : bmHas o.flags .noCompact with
    | true => exact F.taken _ (.raw hs ha hn)
    | false => exact F.relayed _ (.raw hs ha hn)

theorem meth_letters (L : Letters W o P) (G : GoTypes W.E W.ptrTo) (hs : (W.E t).special = none) {m : MethKind} (hp : Picks W.E t ca m)
    (hv : HasType W.E t v) (F : Foreign P W M o t ca v) {n : Nat} {path : Path} {b : Bytes}
    (h : runV W M o (n + 1) path (.marshaler m t (!hasB (W.E t).meths m)) v [] = .ok b) : P b := by
  rcases receives_or_nil G hv hp with ⟨rfl, hh, hpi⟩ | ⟨rt, x, u, hr⟩
  · rw [runV_methNil hh hpi] at h
    cases h
    exact L.safe (by decide)
  · rw [runV_call G hr] at h
    cases m with
    | appendCtx =>
      simp only [callMeth] at h
      split at h
      · next hc => cases h; exact F.taken _ (.method hs hp (by simp) hr hc)
      · cases h
      · cases h
    | append =>
      simp only [callMeth] at h
      split at h
      · next hc => cases h; exact F.taken _ (.method hs hp (by simp) hr hc)
      · cases h
      · cases h
    | text =>
      simp only [callMeth] at h
      split at h
      · next hc =>
        cases h
        exact L.app (L.app (L.safe (by decide)) (F.taken _ (.method hs hp (by simp) hr hc))) (L.safe (by decide))
      · cases h
      · cases h
    | json =>
      simp only [callMeth] at h
      split at h
      · next c hc =>
        simp only [relayJSON] at h
        cases hn : bmHas o.flags .noCompact with
        | true =>
          rw [hn] at h
          cases h
          exact F.taken _ (.json hs hp hr hc hn)
        | false =>
          rw [hn] at h
          simp only [Bool.false_eq_true, if_false] at h
          split at h
          · cases h
          · cases h
            exact F.relayed _ (.json hs hp hr hc hn)
      · cases h
      · cases h

end Jettison.Proofs
