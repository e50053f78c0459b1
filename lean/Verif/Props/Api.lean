import Verif.Props.Check
import Verif.Props.Options
import Verif.Proofs.NoBad
import Verif.Proofs.PrefixRun
import Verif.Proofs.Relate
import Verif.Proofs.Flags

/-! # The entry points (C27, C28, C29, C36, C44) -/

namespace Jettison.Props
open Jettison Jettison.Spec Jettison.Model Jettison.Proofs

variable {W : World} {H : Heap} {M : MethV}

theorem contract_long {fmt : FloatFmt} (h : FormatContract fmt) : FmtLong fmt := by
  intro w bits hf
  obtain ⟨sg, i, f, esg, ds, he, _, hi, _, hs, hd, _⟩ := h.exp w bits hf
  have h1 : 1 ≤ i.length := by
    rcases hi with rfl | ⟨a, b, rfl, _⟩ <;> simp
  have h2 : 1 ≤ esg.length := by rcases hs with rfl | rfl <;> simp
  rw [he]; simp; omega

theorem appendJSON_after (hl : FormatContract W.fmt) (h : HonestAppend H.meth) (o : EncOpts) (n : Nat) (v : Eface) (dst : Bytes) :
    appendJSON W (run W H o n) [] v dst = Res.after dst (appendJSON W (run W H o n) [] v []) :=
  pre_appendJSON (pre_run (contract_long hl) h n) [] v dst

/-! ## C27 -/

/-- C27: with methods that append, a call of `AppendOpts` (and so `Append`) succeeds
exactly when `MarshalOpts` does and returns the destination followed by the same
bytes; they fail with the same error, and the bytes returned with an error of the
encoding still start with the destination. -/
theorem C27_append (hl : FormatContract W.fmt) (h : HonestAppend H.meth) (n : Nat) (dst : Bytes) (v : Eface) (opts : List (Option Opt)) :
    (∀ b, marshalOpts W H n v opts = .ret (some b) none → appendOpts W H n dst v opts = .ret (some (dst ++ b)) none) ∧
    (∀ r, appendOpts W H n dst v opts = .ret r none → ∃ b, r = some (dst ++ b) ∧ marshalOpts W H n v opts = .ret (some b) none) ∧
    (∀ r e, marshalOpts W H n v opts = .ret r (some e) → r = none ∧ ∃ r', appendOpts W H n dst v opts = .ret r' (some e)) ∧
    (∀ r e, appendOpts W H n dst v opts = .ret r (some e) → marshalOpts W H n v opts = .ret none (some e) ∧
      ((r = none ∧ ∃ x, e = .invalidOption x) ∨ ∃ out, r = some (dst ++ out))) := by
  cases v with
  | none => simp [marshalOpts, appendOpts]
  | some x =>
    simp only [marshalOpts, appendOpts]
    cases prepare opts with
    | error e => simp
    | ok o =>
      simp only [marshalJSON, appendTop]
      rw [appendJSON_after hl h o n (some x) dst]
      cases appendJSON W (run W H o n) [] (some x) [] <;> simp [marshalRet, appendRet, Res.after]

/-- `Marshal` and `Append` are `MarshalOpts` and `AppendOpts` without options. -/
theorem C27_no_options (n : Nat) (dst : Bytes) (v : Eface) :
    marshal W H n v = marshalOpts W H n v [] ∧ append W H n dst v = appendOpts W H n dst v [] := by
  cases v <;> exact ⟨rfl, rfl⟩

/-! ## C28 -/

/-- Running an instruction with the outcomes of some nested calls replaced: `ov` gives
the new outcome of the calls it replaces. -/
def runWith (W : World) (H : Heap) (o : EncOpts) (ov : Path → Instr → Loc → Bytes → Option Res) : Nat → Rec
  | 0, _, _, _, _ => .nofuel
  | fuel + 1, path, i, p, dst => (ov path i p dst).getD (exec W H o (runWith W H o ov fuel) path i p dst)

/-- The first result is a failure with `e`, or did not end, or is the second. -/
def FailsOr (e : Err) (r r' : Res) : Prop := r = .nofuel ∨ (∃ b, r = .fail e b) ∨ r = r'

theorem failsOr_cong (e : Err) : Cong (FailsOr e) where
  refl r := .inr (.inr rfl)
  bind := by
    rintro r r' (rfl | ⟨b, rfl⟩ | rfl) k k' hk g
    · exact .inl rfl
    · exact .inr (.inl ⟨_, rfl⟩)
    · cases r <;> first | exact hk _ | exact .inr (.inr rfl)

/-- C28: an error anywhere stops the encoding and is the error of the whole call.
Let some nested calls (elements, keys, values, fields, at any depth) fail with `e`,
whatever the bound. Then a run that ends either fails with `e` as well, or it does not
depend on these calls: it has the same outcome when their outcomes are replaced by
anything at all. -/
theorem C28_error_stops (o : EncOpts) (e : Err) (ov : Path → Instr → Loc → Bytes → Option Res)
    (hov : ∀ path i p dst r, ov path i p dst = some r → ∀ n, run W H o n path i p dst = .nofuel ∨ ∃ b, run W H o n path i p dst = .fail e b) :
    ∀ (n : Nat) (path : Path) (i : Instr) (p : Loc) (dst : Bytes),
      run W H o n path i p dst = .nofuel ∨ (∃ b, run W H o n path i p dst = .fail e b) ∨
        run W H o n path i p dst = runWith W H o ov n path i p dst
  | 0, _, _, _, _ => .inl rfl
  | n + 1, path, i, p, dst => by
    cases h : ov path i p dst with
    | some r =>
      rcases hov path i p dst r h (n + 1) with h | h
      · exact .inl h
      · exact .inr (.inl h)
    | none =>
      have := (failsOr_cong e).exec (W := W) (o := o) (H := H) (H' := H) rfl (fun _ _ _ _ _ _ => .inr (.inr rfl))
        (C28_error_stops o e ov hov n) path i p dst
      simp only [runWith, h, Option.getD_none]
      exact this

/-- The outcome is a failure of a method with error `id`, or the other outcome. -/
def MethFailsOr (id : Nat) (r r' : Res) : Prop := r = .nofuel ∨ (∃ t m b, r = .fail (.marshaler t m (.user id)) b) ∨ r = r'

theorem methFailsOr_cong (id : Nat) : Cong (MethFailsOr id) where
  refl r := .inr (.inr rfl)
  bind := by
    rintro r r' (rfl | ⟨t, m, b, rfl⟩ | rfl) k k' hk g
    · exact .inl rfl
    · exact .inr (.inl ⟨_, _, _, rfl⟩)
    · cases r <;> first | exact hk _ | exact .inr (.inr rfl)

theorem callMeth_fails (o : EncOpts) (id : Nat) {m : MethKind} {t : TId} {call call' : Option Ctx → Bytes → MethRes}
    (h : ∀ c d, call c d = .err id ∨ call c d = call' c d) (dst : Bytes) :
    MethFailsOr id (callMeth W o m t call dst) (callMeth W o m t call' dst) := by
  cases m <;> simp only [callMeth]
  · rcases h o.ctx dst with h | h
    · exact .inr (.inl ⟨t, .appendCtx, dst, by rw [h]⟩)
    · rw [h]; exact .inr (.inr rfl)
  · rcases h none dst with h | h
    · exact .inr (.inl ⟨t, .append, dst, by rw [h]⟩)
    · rw [h]; exact .inr (.inr rfl)
  · rcases h none [] with h | h
    · exact .inr (.inl ⟨t, .json, dst, by rw [h]⟩)
    · rw [h]; exact .inr (.inr rfl)
  · rcases h none [] with h | h
    · exact .inr (.inl ⟨t, .text, dst, by rw [h]⟩)
    · rw [h]; exact .inr (.inr rfl)

/-- C28 for methods: if some method calls fail with the error `id`, then a call of
`MarshalOpts` either returns nil bytes and a `MarshalerError` around `id`, or it
returns what it would return whatever these method calls did. -/
theorem C28_method_error (H H' : Heap) (hm : H.mem = H'.mem) (id : Nat)
    (hmeth : ∀ path m ctx t w dst, H.meth path m ctx t w dst = .err id ∨ H.meth path m ctx t w dst = H'.meth path m ctx t w dst)
    (n : Nat) (v : Eface) (opts : List (Option Opt)) :
    marshalOpts W H n v opts = .nofuel ∨
    (∃ t m, marshalOpts W H n v opts = .ret none (some (.encoding (.marshaler t m (.user id))))) ∨
    marshalOpts W H n v opts = marshalOpts W H' n v opts := by
  cases v with
  | none => exact .inr (.inr rfl)
  | some x =>
    simp only [marshalOpts]
    cases prepare opts with
    | error e => exact .inr (.inr rfl)
    | ok o =>
      have C := methFailsOr_cong id
      have key : ∀ path m t hp p dst, MethFailsOr id (encodeMarshaler W H o path m t hp p dst) (encodeMarshaler W H' o path m t hp p dst) := by
        intro path m t hp p dst
        have hinv : ∀ t, MethFailsOr id (invokeMeth W H o path m t hp p dst) (invokeMeth W H' o path m t hp p dst) := by
          intro t
          simp only [invokeMeth, hm]
          refine C.withRead _ (fun r => ?_)
          cases r with
          | none => exact C.refl _
          | some x => exact callMeth_fails o id (fun c d => hmeth path m c _ _ d) dst
        simp only [encodeMarshaler]
        split
        · split
          · rw [hm]
            refine C.withRead _ (fun r => ?_)
            split
            · exact C.refl _
            · exact hinv _
          · exact hinv _
        · split
          · exact C.refl _
          · exact hinv _
      have := C.appendJSON (W := W) (fun path i p dst => C.run hm key n path i p dst) [] (some x) []
      simp only [marshalJSON]
      rcases this with h | ⟨t, m, b, h⟩ | h
      · exact .inl (by rw [h]; rfl)
      · exact .inr (.inl ⟨t, m, by rw [h]; rfl⟩)
      · exact .inr (.inr (by rw [h]))

/-- C28: whatever happens, the bytes are nil exactly when there is an error. -/
theorem C28_nil_bytes_iff_error (n : Nat) (v : Eface) (opts : List (Option Opt)) {b : Option Bytes} {e : Option ApiErr}
    (h : marshalOpts W H n v opts = .ret b e) : b = none ↔ e ≠ none := by
  cases v with
  | none => simp only [marshalOpts, Ret.ret.injEq] at h; obtain ⟨rfl, rfl⟩ := h; simp
  | some x =>
    simp only [marshalOpts] at h
    cases hp : prepare opts with
    | error e => rw [hp] at h; simp only [Ret.ret.injEq] at h; obtain ⟨rfl, rfl⟩ := h; simp
    | ok o =>
      rw [hp] at h
      simp only [marshalJSON] at h
      cases hr : appendJSON W (run W H o n) [] (some x) [] <;> rw [hr] at h <;> simp only [marshalRet, Ret.ret.injEq, reduceCtorEq] at h <;>
        (obtain ⟨rfl, rfl⟩ := h; simp)

/-! ## The bound on the nesting depth -/

/-- The bound of the model does not matter: a call that ends has the same outcome
under every larger bound. -/
theorem C28_bound_irrelevant {n m : Nat} (hnm : n ≤ m) (v : Eface) (opts : List (Option Opt)) (h : marshalOpts W H n v opts ≠ .nofuel) :
    marshalOpts W H m v opts = marshalOpts W H n v opts := by
  cases v with
  | none => rfl
  | some x =>
    obtain ⟨t, w⟩ := x
    simp only [marshalOpts] at h ⊢
    cases hp : prepare opts with
    | error e => rfl
    | ok o =>
      rw [hp] at h
      simp only [marshalJSON, appendJSON] at h ⊢
      cases hi : instrFor W.E W.tfuel t with
      | none => rfl
      | some i =>
        rw [hi] at h
        simp only at h ⊢
        rw [run_mono hnm (by intro hc; rw [hc] at h; exact h rfl)]

/-! ## C29 -/

/-- C29: rejected options give nil bytes and an `InvalidOptionError` for every value
but the nil interface, for which options are not looked at; nothing of the value or
of the destination is used. -/
theorem C29_rejected_before_encoding (n : Nat) (t : TId) (w : Addr) (dst : Bytes) (opts : List (Option Opt))
    (h : lastSetting settingContext (some 0) opts = none ∨ lastSetting settingLayout layoutRFC3339Nano opts = [] ∨
      ¬ (0 ≤ lastSetting settingDuration 5 opts ∧ lastSetting settingDuration 5 opts ≤ 5)) :
    ∃ e, marshalOpts W H n (some (t, w)) opts = .ret none (some (.invalidOption e)) ∧
      appendOpts W H n dst (some (t, w)) opts = .ret none (some (.invalidOption e)) := by
  obtain ⟨e, he⟩ := (C29_rejected_iff opts).1.mpr h
  exact ⟨e, by simp [marshalOpts, he], by simp [appendOpts, he]⟩

/-- C29: an accepted configuration never gives an `InvalidOptionError`. -/
theorem C29_accepted (n : Nat) (v : Eface) (opts : List (Option Opt))
    (h : ¬ (lastSetting settingContext (some 0) opts = none ∨ lastSetting settingLayout layoutRFC3339Nano opts = [] ∨
      ¬ (0 ≤ lastSetting settingDuration 5 opts ∧ lastSetting settingDuration 5 opts ≤ 5))) (b : Option Bytes) (e : OptErr) :
    marshalOpts W H n v opts ≠ .ret b (some (.invalidOption e)) := by
  cases v with
  | none => simp [marshalOpts]
  | some x =>
    simp only [marshalOpts]
    cases hp : prepare opts with
    | error e => exact absurd ((C29_rejected_iff opts).1.mp ⟨e, hp⟩) h
    | ok o => simp only [marshalJSON]; cases appendJSON W (run W H o n) [] (some x) [] <;> simp [marshalRet]

/-- C29: calls whose options have the same flags and the same last settings return
the same: order, repetition and nil options do not matter, nor does any other call. -/
theorem C29_same_result (n : Nat) (v : Eface) (l l' : List (Option Opt))
    (hf : ∀ f, some (Opt.flag f) ∈ l ↔ some (Opt.flag f) ∈ l')
    (h2 : lastSetting settingLayout layoutRFC3339Nano l = lastSetting settingLayout layoutRFC3339Nano l')
    (h3 : lastSetting settingDuration 5 l = lastSetting settingDuration 5 l')
    (h4 : lastSetting settingContext (some 0) l = lastSetting settingContext (some 0) l')
    (h5 : lastSetting settingAllow none l = lastSetting settingAllow none l')
    (h6 : lastSetting settingDeny none l = lastSetting settingDeny none l')
    {o o' : EncOpts} (ho : prepare l = .ok o) (ho' : prepare l' = .ok o') :
    marshalOpts W H n v l = marshalOpts W H n v l' := by
  have e : o = o' := by
    rw [(C29_rejected_iff l).2 o ho, (C29_rejected_iff l').2 o' ho']
    obtain ⟨a1, a2, a3, a4, a5, a6⟩ := C29_extensional l l' hf h2 h3 h4 h5 h6
    have hfl : (defaultEncOpts.apply l).flags = (defaultEncOpts.apply l').flags :=
      flags_ext (apply_flags_lt l _ (by decide)) (apply_flags_lt l' _ (by decide)) a1
    cases h : defaultEncOpts.apply l with
    | mk c1 t1 d1 f1 al1 dl1 =>
    cases h' : defaultEncOpts.apply l' with
    | mk c2 t2 d2 f2 al2 dl2 =>
    rw [h, h'] at a2 a3 a4 a5 a6 hfl
    simp only at a2 a3 a4 a5 a6 hfl
    subst a2; subst a3; subst a4; subst a5; subst a6; subst hfl
    rfl
  subst e
  cases v with
  | none => rfl
  | some x => simp only [marshalOpts, ho, ho']

/-- The nil interface is `null` even with options that are rejected for any other
value. -/
theorem C29_nil_not_validated : ∃ opts : List (Option Opt), (∃ e, prepare opts = .error e) ∧
    ∀ (W : World) (H : Heap) (n : Nat), marshalOpts W H n none opts = .ret (some (b! "null")) none :=
  ⟨[some (.timeLayout [])], ⟨.emptyLayout, rfl⟩, fun _ _ _ => rfl⟩

/-! ## C36 -/

/-- C36: called on an interface holding the value `v`, the encoder never misreads
memory, and the outcome depends on nothing in memory but the value: another memory
holding the same value elsewhere gives the same. -/
theorem C36_reads_the_value_partial {H' : Heap} (R : Ready W H M) (R' : Ready W H' M) {x x' : Eface} {v : Val}
    (h : ReprE W.E H.mem x v) (h' : ReprE W.E H'.mem x' v) (n : Nat) (opts : List (Option Opt)) :
    marshalOpts W H n x opts ≠ .bad ∧ marshalOpts W H n x opts = marshalOpts W H' n x' opts := by
  have nb : ∀ o, appendJSON W (run W H o n) [] x [] ≠ .bad := fun o => appendJSON_nobad (run_sound R n).2 h _ _
  have eq : ∀ o, appendJSON W (run W H o n) [] x [] = appendJSON W (run W H' o n) [] x' [] := fun o => by
    rw [appendJSON_eq (run_agrees R n).2 h, appendJSON_eq (run_agrees R' n).2 h']
  have hx : ∀ y, x = some y → ∃ y', x' = some y' := by
    rintro y rfl
    cases h with
    | direct => cases h' with
      | direct => exact ⟨_, rfl⟩
      | indirect => exact ⟨_, rfl⟩
    | indirect => cases h' with
      | direct => exact ⟨_, rfl⟩
      | indirect => exact ⟨_, rfl⟩
  cases x with
  | none => cases h; cases h'; simp [marshalOpts]
  | some y =>
    obtain ⟨y', rfl⟩ := hx y rfl
    simp only [marshalOpts]
    cases prepare opts with
    | error e => simp
    | ok o =>
      simp only [marshalJSON]
      refine ⟨?_, by rw [eq o]⟩
      have := nb o
      cases hr : appendJSON W (run W H o n) [] (some y) [] <;> rw [hr] at this <;> simp [marshalRet] at this ⊢

/-! ## C44 -/

/-- C44: the outcome depends on the methods only through calls of
`AppendJSONContext` with the context of the last `WithContext` option (or the
default) and calls of the others, which get none: methods that differ on any other
context give the same outcome. -/
theorem C44_context (H H' : Heap) (hm : H.mem = H'.mem) (opts : List (Option Opt))
    (hc : ∀ path t w dst, H.meth path .appendCtx (lastSetting settingContext (some 0) opts) t w dst =
      H'.meth path .appendCtx (lastSetting settingContext (some 0) opts) t w dst)
    (ho : ∀ path m t w dst, m ≠ .appendCtx → H.meth path m none t w dst = H'.meth path m none t w dst)
    (n : Nat) (v : Eface) : marshalOpts W H n v opts = marshalOpts W H' n v opts := by
  cases v with
  | none => rfl
  | some x =>
    simp only [marshalOpts]
    cases hp : prepare opts with
    | error e => rfl
    | ok o =>
      have hctx : o.ctx = lastSetting settingContext (some 0) opts := by
        rw [(C29_rejected_iff opts).2 o hp]; exact (C29_effect opts).2.2.2.1
      rw [← hctx] at hc
      have C : Cong (fun r r' : Res => r = r') :=
        ⟨fun _ => rfl, by rintro r r' rfl k k' hk g; cases r <;> simp only [Res.bindG]; exact hk _⟩
      have hcall : ∀ path m t rt w dst, callMeth W o m t (H.meth path m · rt w ·) dst = callMeth W o m t (H'.meth path m · rt w ·) dst := by
        intro path m t rt w dst
        cases m
        · simp only [callMeth, hc]
        · simp only [callMeth, ho path .append rt w dst (by simp)]
        · simp only [callMeth, ho path .json rt w [] (by simp)]
        · simp only [callMeth, ho path .text rt w [] (by simp)]
      have hinv : ∀ path m t hp p dst, invokeMeth W H o path m t hp p dst = invokeMeth W H' o path m t hp p dst := by
        intro path m t hp p dst
        simp only [invokeMeth, hm]
        refine C.withRead _ (fun r => ?_)
        cases r with
        | none => rfl
        | some x => exact hcall _ _ _ _ _ _
      have key : ∀ path m t hp p dst, encodeMarshaler W H o path m t hp p dst = encodeMarshaler W H' o path m t hp p dst := by
        intro path m t hp p dst
        simp only [encodeMarshaler, hinv, hm]
      have := C.appendJSON (W := W) (fun path i p dst => C.run hm key n path i p dst) [] (some x) []
      simp only [marshalJSON, this]

/-! ## A concrete call -/

/-- A `Doc` at 100, holding a pointer to a `Point` at 200, a map at 300, a slice at
400, an `int` at 500 in an interface, a nil `*int` and a `Temp`. -/
def docCells : List (Addr × Cell) :=
  [(100, .word 200), (108, .str (b! "a<b")), (124, .word 300), (132, .slice 400 2), (156, .eface (some (0, 500))),
   (172, .word 0), (180, .str (b! "hot")), (200, .int (.int 1)), (208, .int (.int 0)), (300, .hmap [(310, 320), (330, 340)]),
   (310, .str (b! "b")), (320, .int (.int 7)), (330, .str (b! "a")), (340, .int (.int 8)), (400, .int (.int 3)),
   (408, .int (.int 4)), (416, .int (.int 5)), (424, .int (.int 0)), (500, .int (.int 9)), (600, .word 100)]

def docH : Heap := sampleHeap docCells

/-- The value in memory. -/
def docV : Val :=
  .struct [.ptr (.struct [.int (.int 1), .int (.int 0)]), .str (b! "a<b"),
    .map [(.str (b! "b"), .int (.int 7)), (.str (b! "a"), .int (.int 8))],
    .slice [.struct [.int (.int 3), .int (.int 4)], .struct [.int (.int 5), .int (.int 0)]], .iface 0 (.int (.int 9)), .nil, .str (b! "hot")]

theorem docH_holds : ReprE sampleE docH.mem (some (6, 100)) (.iface 6 docV) := sample_repr 9 (by decide +kernel)

/-- The hypotheses of C36 hold of this memory and of the same value held by a
pointer-free copy elsewhere. -/
example : Ready sampleW docH sampleM ∧ ReprE sampleW.E docH.mem (some (6, 100)) (.iface 6 docV) :=
  ⟨sample_ready _, docH_holds⟩

example : marshalOpts sampleW docH 9 (some (6, 100)) [some (.withContext (some 3))] =
    .ret (some (b! "{\"x\":1,\"name\":\"a\\u003cb\",\"Tags\":{\"a\":8,\"b\":7},\"L\":[{\"x\":3,\"y\":4},{\"x\":5}],\"I\":9,\"C\":\"3hot\"}")) none := by
  decide +kernel

/-- The methods of the examples append. -/
theorem sample_honest (cells : List (Addr × Cell)) : HonestAppend (sampleHeap cells).meth := by
  intro path m ctx t w hm
  simp only [sampleHeap]
  generalize recvStr _ t w = s
  rcases hm with rfl | rfl
  · exact .inr <| .inr ⟨b! "0", fun dst => rfl⟩
  · cases ctx with
    | none => exact .inr <| .inr ⟨b! "1", fun dst => rfl⟩
    | some c =>
      cases s with
      | none => exact .inr <| .inr ⟨b! "1", fun dst => rfl⟩
      | some s =>
        simp only [sampleMeth]
        by_cases h : s = []
        · exact .inl ⟨7, fun dst => by simp [h]⟩
        · exact .inr <| .inr ⟨b! "\"" ++ appendUint [] (UInt64.ofNat c) ++ s ++ b! "\"", fun dst => by simp [h]⟩

example : FormatContract sampleW.fmt ∧ HonestAppend docH.meth := ⟨toyFmt_contract, sample_honest _⟩

/-- `Append` to a destination that is itself the text of an object. -/
example : append sampleW docH 9 (b! "null") (some (8, 300)) = .ret (some (b! "null{\"a\":8,\"b\":7}")) none := by
  decide +kernel

/-- A failing method three levels deep, in a slice in a map: an empty `Temp`. -/
def failCells : List (Addr × Cell) := [(100, .hmap [(110, 120)]), (110, .int (.int 4)), (120, .eface (some (14, 130))), (130, .str [])]

example : marshalOpts sampleW (sampleHeap failCells) 9 (some (32, 100)) [] =
      .ret none (some (.encoding (.marshaler 14 .appendCtx (.user 7)))) ∧
    append sampleW (sampleHeap failCells) 9 (b! "x") (some (32, 100)) =
      .ret (some (b! "x{")) (some (.encoding (.marshaler 14 .appendCtx (.user 7)))) := by
  decide +kernel

/-- The hypothesis of `C28_error_stops` for the call of the method in this run. -/
example : ∀ n, run sampleW (sampleHeap failCells) defaultEncOpts n [1] (.marshaler .appendCtx 14 false) (.heap 130) [] = .nofuel ∨
    ∃ b, run sampleW (sampleHeap failCells) defaultEncOpts n [1] (.marshaler .appendCtx 14 false) (.heap 130) [] =
      .fail (.marshaler 14 .appendCtx (.user 7)) b := by
  intro n
  cases n with
  | zero => exact .inl rfl
  | succ n =>
    have h : encodeMarshaler sampleW (sampleHeap failCells) defaultEncOpts [1] .appendCtx 14 false (.heap 130) [] =
      .fail (.marshaler 14 .appendCtx (.user 7)) [] := by decide +kernel
    exact .inr ⟨[], h⟩

end Jettison.Props
