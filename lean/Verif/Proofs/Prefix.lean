import Verif.Proofs.Refine
import Verif.Proofs.Escape
import Verif.Proofs.Compact
import Verif.Proofs.Float
import Verif.Proofs.Duration

/-! # Encoders only append: what is appended does not depend on the destination -/

namespace Jettison.Proofs
open Jettison Jettison.Model Jettison.Spec

/-- The outcome with `dst` in front of the buffer. -/
def Res.after (dst : Bytes) : Res → Res
  | .ok b => .ok (dst ++ b)
  | .fail e b => .fail e (dst ++ b)
  | .panic => .panic
  | .bad => .bad
  | .nofuel => .nofuel

/-- The encoder appends to its destination, independently of the content. -/
def Pre (f : Bytes → Res) : Prop := ∀ dst, f dst = Res.after dst (f [])

/-- Two encoders one after the other. -/
def seqR (f g : Bytes → Res) (dst : Bytes) : Res := match f dst with | .ok d => g d | r => r

theorem after_after (a b : Bytes) (r : Res) : Res.after (a ++ b) r = Res.after a (Res.after b r) := by
  cases r <;> simp [Res.after]

theorem after_ok (a b : Bytes) : Res.after a (.ok b) = .ok (a ++ b) := rfl

theorem after_nil (r : Res) : Res.after [] r = r := by cases r <;> simp [Res.after]

theorem pre_seq {f g : Bytes → Res} (hf : Pre f) (hg : Pre g) : Pre (seqR f g) := by
  intro dst
  simp only [seqR]
  rw [hf dst]
  cases f [] with
  | ok b =>
    simp only [Res.after]
    rw [hg (dst ++ b), hg b, after_after]
    rfl
  | _ => simp [Res.after]

theorem pre_ok (c : Bytes) : Pre (fun dst => .ok (dst ++ c)) := fun dst => by simp [Res.after]
theorem pre_fail (e : Err) : Pre (fun dst => .fail e dst) := fun dst => by simp [Res.after]
theorem pre_panic : Pre (fun _ => .panic) := fun _ => rfl
theorem pre_bad : Pre (fun _ => .bad) := fun _ => rfl
theorem pre_nofuel : Pre (fun _ => .nofuel) := fun _ => rfl

theorem pre_lit {f : Bytes → Res} (c : Bytes) (hf : Pre f) : Pre (fun dst => f (dst ++ c)) := by
  intro dst
  show f (dst ++ c) = Res.after dst (f ([] ++ c))
  rw [hf (dst ++ c), after_after, List.nil_append, ← hf c]

theorem pre_congr {f g : Bytes → Res} (h : ∀ dst, f dst = g dst) (hg : Pre g) : Pre f := by
  intro dst; rw [h, h, hg]

theorem pre_ite {c : Prop} [Decidable c] {f g : Bytes → Res} (hf : Pre f) (hg : Pre g) :
    Pre (fun dst => if c then f dst else g dst) := by
  split <;> assumption

theorem pre_withRead {α : Type} (r : Option α) {f : α → Bytes → Res} (h : ∀ a, r = some a → Pre (f a)) :
    Pre (fun dst => withRead r (f · dst)) := by
  cases r with
  | none => exact pre_bad
  | some a => exact h a rfl

/-- The text of `f` when it succeeds on the empty buffer. -/
theorem pre_res_ok {f : Bytes → Res} (hf : Pre f) {dst b : Bytes} (h : f dst = .ok b) :
    ∃ out, f [] = .ok out ∧ b = dst ++ out := by
  rw [hf dst] at h
  cases hx : f [] with
  | ok out => rw [hx] at h; simp [Res.after] at h; exact ⟨out, rfl, h.symm⟩
  | _ => rw [hx] at h; simp [Res.after] at h

/-! ## The encoders over bytes -/

theorem pre_escaped (b : Bytes) (o : EscOpts) : Pre (fun dst => .ok (appendEscapedBytes dst b o)) :=
  pre_congr (fun dst => by rw [appendEscapedBytes_append]) (pre_ok (appendEscapedBytes [] b o))

theorem pre_map {f : Bytes → Bytes} {out : Bytes} (h : ∀ dst, f dst = dst ++ out) : Pre (fun dst => .ok (f dst)) :=
  pre_congr (fun dst => by rw [h]) (pre_ok out)

theorem encodeString_eq (s dst : Bytes) (o : EscOpts) :
    encodeString s dst o = dst ++ (b! "\"" ++ appendEscapedBytes [] s o ++ b! "\"") := by
  simp only [encodeString]
  rw [appendEscapedBytes_append]; simp

theorem encodeQuotedString_eq (s dst : Bytes) (o : EscOpts) :
    encodeQuotedString s dst o = dst ++ (b! "\"\\\"" ++ appendEscapedBytes [] s o ++ b! "\\\"\"") := by
  simp only [encodeQuotedString]
  rw [appendEscapedBytes_append]; simp

theorem encodeBool_eq (b : Bool) (dst : Bytes) : encodeBool b dst = dst ++ encodeBool b [] := by
  cases b <;> simp [encodeBool]

theorem appendInt_eq (dst : Bytes) (i : Int64) : appendInt dst i = dst ++ appendInt [] i := by
  simp only [appendInt]; split <;> simp

theorem appendUint_eq (dst : Bytes) (i : UInt64) : appendUint dst i = dst ++ appendUint [] i := by
  simp [appendUint]

theorem encodeIntVal_eq (v : IntVal) (dst : Bytes) : encodeIntVal v dst = dst ++ encodeIntVal v [] := by
  cases v <;> simp only [encodeIntVal] <;> first | exact appendInt_eq _ _ | exact appendUint_eq _ _

theorem encodeRawMessage_eq (v : Option Bytes) (dst : Bytes) (o : EncOpts) :
    encodeRawMessage v dst o = dst ++ encodeRawMessage v [] o := by
  cases v with
  | none => simp [encodeRawMessage]
  | some v =>
    simp only [encodeRawMessage]
    split
    · simp
    · rw [appendCompactJSON_eq, appendCompactJSON_eq []]; simp

theorem encodeByteSlice_eq (v : Option Bytes) (dst : Bytes) (o : EscOpts) (raw : Bool) :
    encodeByteSlice v dst o raw = dst ++ encodeByteSlice v [] o raw := by
  cases v with
  | none => simp [encodeByteSlice]
  | some v =>
    simp only [encodeByteSlice]
    cases raw
    · simp
    · simp only [if_true]
      rw [appendEscapedBytes_append, appendEscapedBytes_append ([] ++ _)]; simp

/-- The exponent format is at least four bytes long (`d` `e` sign and two digits). -/
def FmtLong (fmt : FloatFmt) : Prop := ∀ w bits, IsFinite w bits → 4 ≤ (fmt w bits true).length

theorem cleanExp_append (dst s : Bytes) (h : 4 ≤ s.length) : cleanExp (dst ++ s) = dst ++ cleanExp s := by
  have hi : ∀ k, 1 ≤ k → k ≤ 4 → (dst ++ s)[(dst ++ s).length - k]? = s[s.length - k]? := by
    intro k h1 h2
    rw [List.getElem?_append_right (by simp; omega)]
    congr 1
    simp; omega
  simp only [cleanExp]
  rw [hi 4 (by omega) (by omega), hi 3 (by omega) (by omega), hi 2 (by omega) (by omega)]
  have h1 : decide ((dst ++ s).length ≥ 4) = true := by simp; omega
  have h2 : decide (s.length ≥ 4) = true := by simp; omega
  rw [h1, h2]
  split
  · rw [List.take_append, List.drop_append]
    simp only [List.length_append]
    rw [List.take_of_length_le (by omega), List.drop_of_length_le (by omega)]
    rw [show dst.length + s.length - 2 - dst.length = s.length - 2 by omega,
      show dst.length + s.length - 1 - dst.length = s.length - 1 by omega]
    simp
  · rfl

theorem pre_float {fmt : FloatFmt} (hl : FmtLong fmt) (w : FWidth) (bits : Nat) (e : Err) :
    Pre (fun dst => exceptRes (appendFloat fmt dst w bits) e dst) := by
  intro dst
  simp only [appendFloat]
  cases hn : isNaNOrInf w bits with
  | true => simp [exceptRes, Res.after]
  | false =>
    have := hl w bits ((finite_iff w bits).mp hn)
    cases hu : useExp w bits with
    | true => simp [exceptRes, Res.after, cleanExp_append dst _ this]
    | false => simp [exceptRes, Res.after]

theorem pre_number (s : Bytes) (nv : Bool) (e : Err) : Pre (fun dst => exceptRes (encodeNumber s dst nv) e dst) := by
  intro dst
  simp only [encodeNumber]
  generalize (if s = [] then b! "0" else s) = num
  split <;> simp [exceptRes, Res.after]

theorem appendRFC3339Time_eq (t : GoTime) (dst : Bytes) (nano : Bool) :
    appendRFC3339Time t dst nano = (appendRFC3339Time t [] nano).map (dst ++ ·) := by
  unfold appendRFC3339Time
  simp only [Option.bind_eq_bind]
  cases putDateTime t with
  | none => rfl
  | some b =>
    simp only [Option.bind_some]
    cases putFrac t nano b with
    | none => rfl
    | some x =>
      simp only [Option.bind_some]
      cases putZone t x.1 x.2 with
      | none => rfl
      | some y =>
        simp only [Option.bind_some]
        cases wr y.2 (c! '"') y.1 with
        | none => rfl
        | some z => simp

theorem pre_time (fmt : GoTime → Bytes → Bytes) (t : GoTime) (u : Bool) (l : Layout) (e : Err) :
    Pre (fun dst => (encodeTime fmt t dst u l).res e dst) := by
  intro dst
  simp only [encodeTime]
  split
  · simp [BRes.res, Res.after]
  · cases u with
    | true => simp only [if_true, BRes.res, Res.after]; rw [appendInt_eq]
    | false =>
      simp only [Bool.false_eq_true, if_false]
      cases l with
      | rfc3339 =>
        simp only
        rw [appendRFC3339Time_eq]
        cases appendRFC3339Time t [] false <;> simp [BRes.res, Res.after]
      | rfc3339Nano =>
        simp only
        rw [appendRFC3339Time_eq]
        cases appendRFC3339Time t [] true <;> simp [BRes.res, Res.after]
      | other l => simp [BRes.res, Res.after]

theorem appendDuration_eq (dst : Bytes) (d : Int64) : appendDuration dst d = (appendDuration [] d).map (dst ++ ·) := by
  simp only [appendDuration, Option.bind_eq_bind, pure]
  generalize (if decide (d < 0) = true then -d.toUInt64 else d.toUInt64).toNat = u
  split
  · simp only [Option.map_bind, Function.comp_def]
    congr 1
    funext s
    split
    · simp
    · simp [Option.map_bind, Function.comp_def]
  · simp [Option.map_bind, Function.comp_def]

theorem pre_duration {fmt : FloatFmt} (hl : FmtLong fmt) (df : DurFloat) (d : Int64) (f : DurFmt) (e : Err) :
    Pre (fun dst => (encodeDuration fmt df d dst f).res e dst) := by
  cases f with
  | str =>
    intro dst
    simp only [encodeDuration]
    rw [appendDuration_eq, appendDuration_eq ([] ++ _)]
    cases appendDuration [] d <;> simp [BRes.res, Res.after]
  | minutes =>
    refine pre_congr (fun dst => ?_) (pre_float hl .f64 (df.minutes d) e)
    simp only [encodeDuration]
    cases appendFloat fmt dst .f64 (df.minutes d) <;> rfl
  | seconds =>
    refine pre_congr (fun dst => ?_) (pre_float hl .f64 (df.seconds d) e)
    simp only [encodeDuration]
    cases appendFloat fmt dst .f64 (df.seconds d) <;> rfl
  | milliseconds => exact pre_map (fun dst => appendInt_eq dst _)
  | microseconds => exact pre_map (fun dst => appendInt_eq dst _)
  | nanoseconds => exact pre_map (fun dst => appendInt_eq dst _)

/-! ## Loops -/

theorem pre_unsorted {α : Type} {kf vf : Nat → α → Bytes → Res} (hk : ∀ n a, Pre (kf n a)) (hv : ∀ n a, Pre (vf n a)) :
    ∀ (l : List α) (n : Nat), Pre (unsortedLoop kf vf n l)
  | [], n => fun dst => by simp [unsortedLoop, Res.after]
  | e :: es, n => by
    have ih := pre_unsorted hk hv es (n + 1)
    have h2 : Pre (seqR (kf n e) (seqR (fun dst => vf n e (dst ++ b! ":")) (unsortedLoop kf vf (n + 1) es))) :=
      pre_seq (hk n e) (pre_seq (pre_lit _ (hv n e)) ih)
    have h3 : ∀ dst, unsortedLoop kf vf n (e :: es) dst =
        seqR (kf n e) (seqR (fun dst => vf n e (dst ++ b! ":")) (unsortedLoop kf vf (n + 1) es))
          (if n ≠ 0 then dst ++ b! "," else dst) := by
      intro dst
      simp only [unsortedLoop, seqR]
      cases kf n e (if n ≠ 0 then dst ++ b! "," else dst) with
      | ok d =>
        simp only
        cases vf n e (d ++ b! ":") <;> rfl
      | _ => rfl
    by_cases h0 : n = 0
    · refine pre_congr (fun dst => ?_) h2
      rw [h3]; simp [h0]
    · refine pre_congr (fun dst => ?_) (pre_lit (b! ",") h2)
      rw [h3]; simp [h0]

theorem joinEntries_eq : ∀ (l : List (Bytes × Bytes)) (first : Bool) (dst : Bytes),
    joinEntries first l dst = dst ++ joinEntries first l []
  | [], _, dst => by simp [joinEntries]
  | kv :: l, first, dst => by
    simp only [joinEntries]
    rw [joinEntries_eq l false, joinEntries_eq l false (_ ++ kv.2)]
    cases first <;> simp

theorem sortedLoop_stop {α : Type} {kf vf : Nat → α → Bytes → Res} : ∀ {es : List α} {n : Nat} {buf : Bytes}
    {mel : List (Bytes × Bytes)} {b : Bytes}, sortedLoop kf vf n es buf mel ≠ .stop (.ok b)
  | [], _, _, _, _, h => by simp [sortedLoop] at h
  | e :: es, n, buf, mel, b, h => by
    simp only [sortedLoop] at h
    split at h
    · split at h
      · simp at h
      · split at h
        · split at h
          · simp at h
          · exact sortedLoop_stop h
        · next hn => simp at h; exact hn _ h
    · next hn => simp at h; exact hn _ h

theorem pre_sorted {α : Type} (sort : SortAlg) (kf vf : Nat → α → Bytes → Res) (es : List α) :
    Pre (encodeSorted sort kf vf es) := by
  intro dst
  simp only [encodeSorted]
  cases h : sortedLoop kf vf 0 es [] [] with
  | ok mel => simp only [Res.after]; rw [joinEntries_eq]
  | stop r =>
    cases r with
    | ok b => exact absurd h sortedLoop_stop
    | _ => simp [Res.after]

theorem pre_entries {α : Type} (W : World) (o : EncOpts) {kf vf : Nat → α → Bytes → Res} (hk : ∀ n a, Pre (kf n a))
    (hv : ∀ n a, Pre (vf n a)) (es : List α) : Pre (encodeEntries W o kf vf es) := by
  have h1 : Pre (fun dst => if bmHas o.flags .unsortedMap then unsortedLoop kf vf 0 es dst
      else encodeSorted W.sort kf vf es dst) := pre_ite (pre_unsorted hk hv es 0) (pre_sorted W.sort kf vf es)
  refine pre_congr (fun dst => ?_) (pre_lit (b! "{") (pre_seq h1 (pre_ok (b! "}"))))
  simp only [encodeEntries, seqR]
  generalize (if bmHas o.flags .unsortedMap then _ else _) = r
  cases r <;> rfl

theorem pre_array {rec : Rec} (hr : ∀ path i p, Pre (rec path i p)) (path : Path) (ins : Instr) (es : Nat) (p : Loc) :
    ∀ (n i : Nat), Pre (arrayLoop rec path ins es p i n)
  | 0, i => by
    by_cases h : i = 0
    · refine pre_congr (fun dst => ?_) (pre_ok (b! "[]")); simp [arrayLoop, h]
    · refine pre_congr (fun dst => ?_) (pre_ok (b! "]")); simp [arrayLoop, h]
  | n + 1, i => by
    have ih := pre_array hr path ins es p n (i + 1)
    refine pre_congr (fun dst => ?_)
      (pre_lit (if i = 0 then b! "[" else b! ",") (pre_seq (hr (i :: path) ins (p.add (i * es))) ih))
    simp only [arrayLoop, seqR]
    cases rec (i :: path) ins (p.add (i * es)) (dst ++ (if i = 0 then b! "[" else b! ",")) <;> rfl

theorem pre_arrayV {rec : RecV} (hr : ∀ path i v, Pre (rec path i v)) (path : Path) (ins : Instr) :
    ∀ (vs : List Val) (i : Nat), Pre (arrayLoopV rec path ins i vs)
  | [], i => by
    by_cases h : i = 0
    · refine pre_congr (fun dst => ?_) (pre_ok (b! "[]")); simp [arrayLoopV, h]
    · refine pre_congr (fun dst => ?_) (pre_ok (b! "]")); simp [arrayLoopV, h]
  | v :: vs, i => by
    have ih := pre_arrayV hr path ins vs (i + 1)
    refine pre_congr (fun dst => ?_)
      (pre_lit (if i = 0 then b! "[" else b! ",") (pre_seq (hr (i :: path) ins v) ih))
    simp only [arrayLoopV, seqR]
    cases rec (i :: path) ins v (dst ++ (if i = 0 then b! "[" else b! ",")) <;> rfl

/-- The loop over fields, for any way of finding the fields. -/
def structLoopG {α : Type} (o : EncOpts) (get : FInstr → Option (Option α)) (rec : Path → Instr → α → Bytes → Res)
    (path : Path) : Nat → List FInstr → Bool → Bytes → Res
  | _, [], first, dst => .ok (if first then dst ++ b! "{}" else dst ++ b! "}")
  | i, f :: fs, first, dst =>
    match get f with
    | none => .bad
    | some none => structLoopG o get rec path (i + 1) fs first dst
    | some (some x) =>
      let last := if first then dst.length + 1 else dst.length
      match rec (i :: path) f.instr x (dst ++ (if first then b! "{" else b! ",") ++ fieldKey o f.fld.name) with
      | .ok dst =>
        if f.omitNullMarshaler && endsNull dst then structLoopG o get rec path (i + 1) fs false (dst.take last)
        else structLoopG o get rec path (i + 1) fs false dst
      | r => r

theorem structLoop_G (H : Heap) (o : EncOpts) (rec : Rec) (path : Path) (p : Loc) :
    ∀ (fs : List FInstr) (i : Nat) (first : Bool) (dst : Bytes),
    structLoop H o rec path p i fs first dst = structLoopG o (fieldLoc H.mem o · p) rec path i fs first dst
  | [], _, _, _ => rfl
  | f :: fs, i, first, dst => by
    simp only [structLoop, structLoopG]
    cases fieldLoc H.mem o f p with
    | none => rfl
    | some x =>
      cases x with
      | none => exact structLoop_G H o rec path p fs _ _ _
      | some fp =>
        simp only [structLoop_G H o rec path p fs]
        generalize rec (i :: path) f.instr fp _ = r
        cases r <;> rfl

theorem structLoopV_G (o : EncOpts) (rec : RecV) (path : Path) (v : Val) :
    ∀ (fs : List FInstr) (i : Nat) (first : Bool) (dst : Bytes),
    structLoopV o rec path v i fs first dst = structLoopG o (fieldV o · v) rec path i fs first dst
  | [], _, _, _ => rfl
  | f :: fs, i, first, dst => by
    simp only [structLoopV, structLoopG]
    cases fieldV o f v with
    | none => rfl
    | some x =>
      cases x with
      | none => exact structLoopV_G o rec path v fs _ _ _
      | some fp =>
        simp only [structLoopV_G o rec path v fs]
        generalize rec (i :: path) f.instr fp _ = r
        cases r <;> rfl

theorem fieldKey_length (o : EncOpts) (name : Bytes) : 3 ≤ (fieldKey o name).length := by
  unfold fieldKey keyNonEsc keyEscHTML
  split <;> simp <;> omega

theorem fieldKey_last (o : EncOpts) (name : Bytes) : ∃ k, fieldKey o name = k ++ b! ":" := by
  unfold fieldKey
  split
  · exact ⟨b! "\"" ++ name ++ b! "\"", by simp [keyNonEsc]⟩
  · exact ⟨b! "\"" ++ htmlEscape name ++ b! "\"", by simp [keyEscHTML]⟩

/-- Whether a text ends in `null`. -/
def nullEnd (out : Bytes) : Bool := decide (4 ≤ out.length) && out.drop (out.length - 4) = b! "null"

theorem drop_tail {a b : Bytes} {k : Nat} (h : k ≤ b.length) : (a ++ b).drop ((a ++ b).length - k) = b.drop (b.length - k) := by
  rw [List.drop_append, List.drop_of_length_le (by simp; omega)]
  simp only [List.length_append, List.nil_append]
  congr 1
  omega

/-- The test of the code looks at the text of the value only. -/
theorem endsNull_key (pre k out : Bytes) : endsNull (pre ++ (k ++ b! ":") ++ out) = nullEnd out := by
  by_cases h : 4 ≤ out.length
  · simp only [endsNull, nullEnd, drop_tail h]
    have h1 : decide ((pre ++ (k ++ b! ":") ++ out).length > 4) = true := by simp; omega
    have h2 : decide (4 ≤ out.length) = true := by simpa using h
    rw [h1, h2]
  · have h2 : decide (4 ≤ out.length) = false := by simpa using h
    simp only [nullEnd, h2, Bool.false_and, endsNull, Bool.and_eq_false_iff, decide_eq_false_iff_not]
    right
    intro hc
    have hx : (pre ++ (k ++ b! ":") ++ out) = (pre ++ k) ++ (c! ':' :: out) := by simp
    rw [hx] at hc
    have hmem : c! ':' ∈ (pre ++ k ++ (c! ':' :: out)).drop ((pre ++ k ++ (c! ':' :: out)).length - 4) := by
      rw [List.drop_append]
      apply List.mem_append_right
      have : (pre ++ k ++ (c! ':' :: out)).length - 4 - (pre ++ k).length = 0 := by simp at h ⊢; omega
      rw [this]; simp
    rw [hc] at hmem
    revert hmem
    decide

theorem pre_structG {α : Type} (o : EncOpts) (get : FInstr → Option (Option α)) {rec : Path → Instr → α → Bytes → Res}
    (hr : ∀ path i p, Pre (rec path i p)) (path : Path) :
    ∀ (fs : List FInstr) (i : Nat) (first : Bool), Pre (structLoopG o get rec path i fs first)
  | [], i, first => by
    cases first
    · exact pre_congr (fun dst => by simp [structLoopG]) (pre_ok (b! "}"))
    · exact pre_congr (fun dst => by simp [structLoopG]) (pre_ok (b! "{}"))
  | f :: fs, i, first => by
    have ih := pre_structG o get hr path fs (i + 1)
    cases hg : get f with
    | none => exact pre_congr (fun dst => by simp [structLoopG, hg]) pre_bad
    | some x =>
      cases x with
      | none => exact pre_congr (fun dst => by simp [structLoopG, hg]) (ih first)
      | some fp =>
        obtain ⟨k, hk⟩ := fieldKey_last o f.fld.name
        intro dst
        simp only [structLoopG, hg]
        have e1 : dst ++ (if first = true then b! "{" else b! ",") ++ fieldKey o f.fld.name =
            dst ++ ([] ++ (if first = true then b! "{" else b! ",") ++ fieldKey o f.fld.name) := by simp
        rw [e1, hr _ _ _ (dst ++ _), after_after, ← hr]
        have hp := hr (i :: path) f.instr fp ([] ++ (if first = true then b! "{" else b! ",") ++ fieldKey o f.fld.name)
        generalize hx : rec (i :: path) f.instr fp [] = r at hp
        rw [hp]
        cases r with
        | ok out =>
          simp only [after_ok]
          have e2 : endsNull (dst ++ ([] ++ (if first = true then b! "{" else b! ",") ++ fieldKey o f.fld.name ++ out)) = nullEnd out := by
            rw [hk, ← List.append_assoc, ← List.append_assoc, endsNull_key]
          have e3 : endsNull ([] ++ (if first = true then b! "{" else b! ",") ++ fieldKey o f.fld.name ++ out) = nullEnd out := by
            rw [hk, endsNull_key]
          rw [e2, e3]
          split
          · cases first
            · simp only [Bool.false_eq_true, if_false]
              rw [List.take_left' rfl]
              simp only [List.length_nil, List.take_zero]
              exact ih false dst
            · simp only [if_true]
              rw [ih false, ih false (List.take _ ([] ++ _ ++ _ ++ _)), ← after_after]
              congr 1
              rw [List.take_append, List.take_of_length_le (by omega)]
              simp
          · rw [ih false, ih false ([] ++ _ ++ _ ++ _), ← after_after]
        | _ => simp [Res.after]

end Jettison.Proofs
