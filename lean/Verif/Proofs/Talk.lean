import Verif.Model.Talk

/-!
# The conversation with the methods gives the results of the encoder

With methods that are a function fixed in advance, a conversation ends with what the functions of
Model/Encode and Model/Api give.
-/

namespace Jettison.Proofs
open Jettison Jettison.Model

variable {α β : Type} {W : World} {H : Heap} {o : EncOpts}

theorem answer_bind (meth : Path → MethKind → Option Ctx → TId → Loc → Bytes → MethRes) (c : Talk α) (f : α → Talk β) :
    (c.bind f).answer meth = (f (c.answer meth)).answer meth := by
  induction c with
  | done a => rfl
  | ask q k ih => exact ih _

theorem answer_andThen (meth : Path → MethKind → Option Ctx → TId → Loc → Bytes → MethRes) (c : Talk Res) (f : Bytes → Talk Res) :
    (c.andThen f).answer meth = match c.answer meth with | .ok b => (f b).answer meth | r => r := by
  rw [Talk.andThen, answer_bind]
  cases c.answer meth <;> rfl

/-- The instructions called give the same results. -/
def SameRec (H : Heap) (rt : RecT) (r : Rec) : Prop := ∀ path i p dst, (rt path i p dst).answer H.meth = r path i p dst

variable {rt : RecT} {r : Rec}

theorem answer_withRead (x : Option α) (f : α → Talk Res) (g : α → Res) (h : ∀ a, (f a).answer H.meth = g a) :
    (withReadT x f).answer H.meth = withRead x g := by
  cases x with
  | none => rfl
  | some a => exact h a

theorem answer_structLoop (h : SameRec H rt r) (path : Path) (p : Loc) : ∀ (fs : List FInstr) (i : Nat) (first : Bool) (dst : Bytes),
    (structLoopT H.mem o rt path p i fs first dst).answer H.meth = structLoop H o r path p i fs first dst
  | [], _, _, _ => rfl
  | f :: fs, i, first, dst => by
    simp only [structLoopT, structLoop]
    cases fieldLoc H.mem o f p with
    | none => rfl
    | some x =>
      cases x with
      | none => exact answer_structLoop h path p fs _ _ _
      | some fp =>
        simp only
        rw [answer_andThen, h]
        cases r (i :: path) f.instr fp _ with
        | ok d =>
          simp only
          split
          · exact answer_structLoop h path p fs _ _ _
          · exact answer_structLoop h path p fs _ _ _
        | _ => rfl

theorem answer_arrayLoop (h : SameRec H rt r) (path : Path) (ins : Instr) (es : Nat) (p : Loc) : ∀ (n i : Nat) (dst : Bytes),
    (arrayLoopT rt path ins es p i n dst).answer H.meth = arrayLoop r path ins es p i n dst
  | 0, _, _ => rfl
  | n + 1, i, dst => by
    simp only [arrayLoopT, arrayLoop]
    rw [answer_andThen, h]
    cases r (i :: path) ins (p.add (i * es)) _ with
    | ok d => exact answer_arrayLoop h path ins es p n _ _
    | _ => rfl

theorem answer_array (h : SameRec H rt r) (path : Path) (ins : Instr) (es len : Nat) (isba : Bool) (p : Loc) (dst : Bytes) :
    (encodeArrayT H.mem o rt path ins es len isba p dst).answer H.meth = encodeArray H o r path ins es len isba p dst := by
  simp only [encodeArrayT, encodeArray]
  split
  · exact answer_withRead _ _ _ fun _ => rfl
  · exact answer_arrayLoop h path ins es p _ _ _

variable {kt vt : Nat → α → Bytes → Talk Res} {k v : Nat → α → Bytes → Res}

theorem answer_unsortedLoop (hk : ∀ n a d, (kt n a d).answer H.meth = k n a d) (hv : ∀ n a d, (vt n a d).answer H.meth = v n a d) :
    ∀ (es : List α) (n : Nat) (dst : Bytes), (unsortedLoopT kt vt n es dst).answer H.meth = unsortedLoop k v n es dst
  | [], _, _ => rfl
  | e :: es, n, dst => by
    simp only [unsortedLoopT, unsortedLoop]
    rw [answer_andThen, hk]
    cases k n e _ with
    | ok d =>
      simp only
      rw [answer_andThen, hv]
      cases v n e _ with
      | ok d => exact answer_unsortedLoop hk hv es _ _
      | _ => rfl
    | _ => rfl

theorem answer_sortedLoop (hk : ∀ n a d, (kt n a d).answer H.meth = k n a d) (hv : ∀ n a d, (vt n a d).answer H.meth = v n a d) :
    ∀ (es : List α) (n : Nat) (buf : Bytes) (mel : List (Bytes × Bytes)), (sortedLoopT kt vt n es buf mel).answer H.meth = sortedLoop k v n es buf mel
  | [], _, _, _ => rfl
  | e :: es, n, buf, mel => by
    simp only [sortedLoopT, sortedLoop]
    rw [answer_bind, hk]
    cases k n e buf with
    | ok buf1 =>
      simp only
      split
      · rfl
      · rw [answer_bind, hv]
        cases v n e (buf1 ++ b! ":") with
        | ok buf2 =>
          simp only
          split
          · rfl
          · exact answer_sortedLoop hk hv es _ _ _
        | _ => rfl
    | _ => rfl

theorem answer_entries (hk : ∀ n a d, (kt n a d).answer H.meth = k n a d) (hv : ∀ n a d, (vt n a d).answer H.meth = v n a d) (es : List α) (dst : Bytes) :
    (encodeEntriesT W o kt vt es dst).answer H.meth = encodeEntries W o k v es dst := by
  simp only [encodeEntriesT, encodeEntries]
  rw [answer_andThen]
  have : (if bmHas o.flags .unsortedMap = true then unsortedLoopT kt vt 0 es (dst ++ b! "{") else encodeSortedT W.sort kt vt es (dst ++ b! "{")).answer H.meth =
      if bmHas o.flags .unsortedMap = true then unsortedLoop k v 0 es (dst ++ b! "{") else encodeSorted W.sort k v es (dst ++ b! "{") := by
    split
    · exact answer_unsortedLoop hk hv _ _ _
    · simp only [encodeSortedT, encodeSorted]
      rw [answer_bind, answer_sortedLoop hk hv]
      cases sortedLoop k v 0 es [] [] with
      | ok mel => rfl
      | stop r => cases r <;> rfl
  rw [this]
  cases (if bmHas o.flags .unsortedMap = true then unsortedLoop k v 0 es (dst ++ b! "{") else encodeSorted W.sort k v es (dst ++ b! "{")) <;> rfl

theorem answer_map (h : SameRec H rt r) (path : Path) (ki vi : Instr) (p : Loc) (dst : Bytes) :
    (encodeMapT W H.mem o rt path ki vi p dst).answer H.meth = encodeMap W H o r path ki vi p dst := by
  refine answer_withRead _ _ _ fun a => ?_
  split
  · rfl
  · refine answer_withRead _ _ _ fun es => ?_
    split
    · rfl
    · exact answer_entries (fun _ _ _ => h _ _ _ _) (fun _ _ _ => h _ _ _ _) _ _

theorem answer_appendJSON (h : SameRec H rt r) (path : Path) (v : Eface) (dst : Bytes) :
    (appendJSONT W rt path v dst).answer H.meth = appendJSON W r path v dst := by
  cases v with
  | none => rfl
  | some x =>
    simp only [appendJSONT, appendJSON]
    cases instrFor W.E W.tfuel x.1 with
    | none => rfl
    | some i => exact h _ _ _ _

theorem answer_syncMapKey (h : SameRec H rt r) (path : Path) (key : Eface) (dst : Bytes) :
    (appendSyncMapKeyT W H.mem o rt path key dst).answer H.meth = appendSyncMapKey W H o r path key dst := by
  unfold appendSyncMapKeyT appendSyncMapKey
  split
  · rfl
  · simp only
    split
    · rfl
    · split
      · exact answer_withRead _ _ _ fun _ => rfl
      · rw [answer_andThen, answer_appendJSON h]
        cases appendJSON W r path _ _ <;> rfl

theorem answer_syncMap (h : SameRec H rt r) (path : Path) (p : Loc) (dst : Bytes) :
    (encodeSyncMapT W H.mem o rt path p dst).answer H.meth = encodeSyncMap W H o r path p dst :=
  answer_withRead _ _ _ fun _ => answer_entries (fun _ _ _ => answer_syncMapKey h _ _ _) (fun _ _ _ => answer_appendJSON h _ _ _) _ _

theorem answer_callMeth (path : Path) (m : MethKind) (t u : TId) (w : Loc) (dst : Bytes) :
    (callMethT W o path m t u w dst).answer H.meth = callMeth W o m t (H.meth path m · u w ·) dst := by
  cases m <;> simp only [callMethT, callMeth, Talk.answer]
  · cases H.meth path .appendCtx o.ctx u w dst <;> rfl
  · cases H.meth path .append none u w dst <;> rfl
  · cases H.meth path .json none u w [] <;> rfl
  · cases H.meth path .text none u w [] <;> rfl

theorem answer_invoke (path : Path) (m : MethKind) (t : TId) (hp : Bool) (p : Loc) (dst : Bytes) :
    (invokeMethT W H.mem o path m t hp p dst).answer H.meth = invokeMeth W H o path m t hp p dst := by
  refine answer_withRead _ _ _ fun r => ?_
  cases r with
  | none => rfl
  | some x => exact answer_callMeth _ _ _ _ _ _

theorem answer_marshaler (path : Path) (m : MethKind) (t : TId) (hp : Bool) (p : Loc) (dst : Bytes) :
    (encodeMarshalerT W H.mem o path m t hp p dst).answer H.meth = encodeMarshaler W H o path m t hp p dst := by
  unfold encodeMarshalerT encodeMarshaler
  split
  · split
    · refine answer_withRead _ _ _ fun b => ?_
      split
      · rfl
      · exact answer_invoke _ _ _ _ _ _
    · exact answer_invoke _ _ _ _ _ _
  · split
    · rfl
    · exact answer_invoke _ _ _ _ _ _

theorem answer_exec (h : SameRec H rt r) : SameRec H (execT W H.mem o rt) (exec W H o r) := by
  intro path i p dst
  cases i with
  | goType s =>
    cases s with
    | syncMap => exact answer_syncMap h _ _ _
    | duration =>
      refine answer_withRead _ _ _ fun v => ?_
      cases v <;> rfl
    | _ => exact answer_withRead _ _ _ fun _ => rfl
  | marshaler m t hp => exact answer_marshaler _ _ _ _ _ _
  | quoted i =>
    simp only [execT, exec]
    rw [answer_andThen, h]
    cases r path i p _ <;> rfl
  | nilText i =>
    refine answer_withRead _ _ _ fun a => ?_
    split
    · rfl
    · exact h _ _ _ _
  | inline i =>
    cases p with
    | heap w => exact h _ _ _ _
    | tmp w => rfl
  | iface =>
    refine answer_withRead _ _ _ fun v => ?_
    cases v with
    | none => rfl
    | some x => exact answer_appendJSON h _ _ _
  | struct t ca =>
    simp only [execT, exec]
    split
    · rfl
    · cases structFieldsInstr W.E W.U W.grow W.sort W.tfuel t ca with
      | none => rfl
      | some flds => exact answer_structLoop h _ _ _ _ _ _
  | map t ki vi => exact answer_map h _ _ _ _ _
  | slice ins es =>
    refine answer_withRead _ _ _ fun x => ?_
    obtain ⟨d, n⟩ := x
    simp only
    split
    · rfl
    · split
      · rfl
      · exact answer_array h _ _ _ _ _ _ _
  | array ins es n isba => exact answer_array h _ _ _ _ _ _ _
  | ptr i =>
    refine answer_withRead _ _ _ fun a => ?_
    split
    · exact h _ _ _ _
    · rfl
  | unsupported t => rfl
  | _ => exact answer_withRead _ _ _ fun _ => rfl

/-- The conversation ends with the result of the encoder. -/
theorem answer_run : ∀ (n : Nat), SameRec H (runT W H.mem o n) (run W H o n)
  | 0 => fun _ _ _ _ => rfl
  | n + 1 => answer_exec (answer_run n)

theorem answer_marshalT (n : Nat) (v : Eface) (opts : List (Option Opt)) : (marshalT W H.mem n v opts).answer H.meth = marshalOpts W H n v opts := by
  cases v with
  | none => rfl
  | some x =>
    simp only [marshalT, marshalOpts]
    cases prepare opts with
    | error e => rfl
    | ok o =>
      simp only
      rw [answer_bind, answer_appendJSON (answer_run n)]
      rfl

theorem answer_appendT (n : Nat) (dst : Bytes) (v : Eface) (opts : List (Option Opt)) : (appendT W H.mem n dst v opts).answer H.meth = appendOpts W H n dst v opts := by
  cases v with
  | none => rfl
  | some x =>
    simp only [appendT, appendOpts]
    cases prepare opts with
    | error e => rfl
    | ok o =>
      simp only
      rw [answer_bind, answer_appendJSON (answer_run n)]
      rfl

end Jettison.Proofs
