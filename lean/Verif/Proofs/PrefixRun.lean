import Verif.Proofs.Prefix

/-! # Whole instructions only append -/

namespace Jettison.Proofs
open Jettison Jettison.Model Jettison.Spec

variable {W : World} {H : Heap} {M : MethV} {o : EncOpts}

theorem pre_callMeth (m : MethKind) (t : TId) {call : Option Ctx → Bytes → MethRes}
    (h : ∀ ctx, m = .append ∨ m = .appendCtx → Appends (call ctx)) : Pre (callMeth W o m t call) := by
  cases m with
  | appendCtx =>
    rcases h o.ctx (by simp) with ⟨e, he⟩ | hp | ⟨out, ho⟩
    · exact pre_congr (fun dst => by simp only [callMeth, he]) (pre_fail (.marshaler t .appendCtx (.user e)))
    · exact fun dst => by simp only [callMeth, hp, Res.after]
    · exact pre_congr (fun dst => by simp only [callMeth, ho]) (pre_ok out)
  | append =>
    rcases h none (by simp) with ⟨e, he⟩ | hp | ⟨out, ho⟩
    · exact pre_congr (fun dst => by simp only [callMeth, he]) (pre_fail (.marshaler t .append (.user e)))
    · exact fun dst => by simp only [callMeth, hp, Res.after]
    · exact pre_congr (fun dst => by simp only [callMeth, ho]) (pre_ok out)
  | json =>
    simp only [Pre, callMeth]
    intro dst
    cases call none [] with
    | err e => simp [Res.after]
    | panic => simp [Res.after]
    | ok b =>
      simp only [relayJSON]
      split
      · simp [Res.after]
      · split
        · simp [Res.after]
        · simp only [Res.after]
          rw [appendCompactJSON_eq, appendCompactJSON_eq []]; simp
  | text =>
    simp only [Pre, callMeth]
    intro dst
    cases call none [] <;> simp [Res.after]

theorem pre_invoke (h : HonestAppend H.meth) (path : Path) (m : MethKind) (t : TId) (hp : Bool) (p : Loc) :
    Pre (invokeMeth W H o path m t hp p) := by
  unfold invokeMeth
  refine pre_withRead _ (fun a _ => ?_)
  cases a with
  | none => exact pre_panic
  | some x => exact pre_callMeth m t (fun ctx hm => h path m ctx x.1 x.2 hm)

theorem pre_marshaler (h : HonestAppend H.meth) (path : Path) (m : MethKind) (t : TId) (hp : Bool) (p : Loc) :
    Pre (encodeMarshaler W H o path m t hp p) := by
  unfold encodeMarshaler
  refine pre_ite (pre_ite (pre_withRead _ (fun a _ => pre_ite (pre_ok _) (pre_invoke h _ _ _ _ _))) (pre_invoke h _ _ _ _ _))
    (pre_ite (pre_ok _) (pre_invoke h _ _ _ _ _))

theorem pre_appendJSON {rec : Rec} (hr : ∀ path i p, Pre (rec path i p)) (path : Path) (v : Eface) :
    Pre (appendJSON W rec path v) := by
  unfold appendJSON
  cases v with
  | none => exact pre_panic
  | some x =>
    simp only
    cases instrFor W.E W.tfuel x.1 with
    | none => exact pre_nofuel
    | some i => exact hr _ _ _

theorem pre_quote {f : Bytes → Res} (q : Bool) (hf : Pre f) :
    Pre (fun dst => match f (if q = true then dst ++ b! "\"" else dst) with
      | .ok dst => .ok (if q = true then dst ++ b! "\"" else dst) | r => r) := by
  cases q with
  | true =>
    refine pre_congr (fun dst => ?_) (pre_lit (b! "\"") (pre_seq hf (pre_ok (b! "\""))))
    simp only [if_true, seqR]
    cases f (dst ++ b! "\"") <;> rfl
  | false =>
    refine pre_congr (fun dst => ?_) hf
    simp only [Bool.false_eq_true, if_false]
    cases f dst <;> rfl

theorem pre_syncMapKey {rec : Rec} (hr : ∀ path i p, Pre (rec path i p)) (path : Path) (v : Eface) :
    Pre (appendSyncMapKey W H o rec path v) := by
  unfold appendSyncMapKey
  cases v with
  | none => exact pre_fail _
  | some x =>
    simp only
    refine pre_ite (pre_fail _) (pre_ite (pre_withRead _ (fun s _ => pre_map (encodeString_eq s · _))) ?_)
    exact pre_congr (fun dst => by
      generalize appendJSON W rec path (some (x.1, x.2)) _ = r
      cases r <;> rfl) (pre_quote _ (pre_appendJSON hr path (some x)))

theorem pre_special (hl : FmtLong W.fmt) {rec : Rec} (hr : ∀ path i p, Pre (rec path i p)) (path : Path) (s : Special) (p : Loc) :
    Pre (encodeSpecial W H o rec path s p) := by
  cases s with
  | syncMap =>
    exact pre_withRead _ (fun es _ => pre_entries W o (fun n a => pre_syncMapKey hr _ _) (fun n a => pre_appendJSON hr _ _) _)
  | time => exact pre_withRead _ (fun t _ => pre_time _ _ _ _ _)
  | duration =>
    refine pre_withRead _ (fun v _ => ?_)
    cases v <;> first | exact pre_bad | exact pre_duration hl _ _ _ _
  | number => exact pre_withRead _ (fun s _ => pre_number _ _ _)
  | rawMessage => exact pre_withRead _ (fun s _ => pre_map (encodeRawMessage_eq s · o))

theorem pre_byteArray (b : Bytes) (o : EncOpts) :
    Pre (fun dst => .ok (appendEscapedBytes (dst ++ b! "\"") b o.esc ++ b! "\"")) :=
  pre_map (out := b! "\"" ++ (appendEscapedBytes [] b o.esc ++ b! "\""))
    (fun dst => by rw [appendEscapedBytes_append]; simp only [List.append_assoc])

theorem pre_exec (hl : FmtLong W.fmt) (h : HonestAppend H.meth) {rec : Rec} (hr : ∀ path i p, Pre (rec path i p)) (path : Path)
    (i : Instr) (p : Loc) : Pre (exec W H o rec path i p) := by
  have harr : ∀ ins es len isba p, Pre (encodeArray H o rec path ins es len isba p) := fun ins es len isba p =>
    pre_ite (pre_withRead _ (fun b _ => pre_byteArray b o)) (pre_array hr path ins es p len 0)
  cases i with
  | goType s => exact pre_special hl hr path s p
  | marshaler m t hp => exact pre_marshaler h path m t hp p
  | bool => exact pre_withRead _ (fun b _ => pre_map (encodeBool_eq b))
  | int k => exact pre_withRead _ (fun v _ => pre_map (encodeIntVal_eq v))
  | float w => exact pre_withRead _ (fun b _ => pre_float hl w b _)
  | string => exact pre_withRead _ (fun s _ => pre_map (encodeString_eq s · _))
  | quotedString => exact pre_withRead _ (fun s _ => pre_map (encodeQuotedString_eq s · _))
  | quoted i =>
    refine pre_congr (fun dst => ?_) (pre_quote true (hr path i p))
    simp only [exec, if_true]
    cases rec path i p (dst ++ b! "\"") <;> rfl
  | nilText i => exact pre_withRead _ (fun a _ => pre_ite (pre_ok _) (hr path i p))
  | inline i =>
    cases p with
    | heap w => exact hr path i (.tmp w)
    | tmp w => exact pre_bad
  | iface =>
    refine pre_withRead _ (fun v _ => ?_)
    cases v with
    | none => exact pre_ok _
    | some x => exact pre_appendJSON hr path (some x)
  | struct t ca =>
    refine pre_ite (pre_ok _) ?_
    cases structFieldsInstr W.E W.U W.grow W.sort W.tfuel t ca with
    | none => exact pre_nofuel
    | some fl => exact pre_congr (fun dst => structLoop_G H o rec path p fl 0 true dst) (pre_structG o _ hr path fl 0 true)
  | map t ki vi =>
    refine pre_withRead _ (fun a _ => pre_ite (pre_congr (fun dst => ?_) (pre_ite (c := bmHas o.flags .nilMapEmpty = true)
      (pre_ok (b! "{}")) (pre_ok (b! "null")))) ?_)
    · split <;> rfl
    · exact pre_withRead _ (fun es _ => pre_ite (pre_ok _)
        (pre_entries W o (fun n a => hr _ _ _) (fun n a => hr _ _ _) _))
  | byteSlice => exact pre_withRead _ (fun b _ => pre_map (encodeByteSlice_eq b · _ _))
  | slice ins es =>
    refine pre_withRead _ (fun a _ => pre_ite (pre_congr (fun dst => ?_) (pre_ite (c := bmHas o.flags .nilSliceEmpty = true)
      (pre_ok (b! "[]")) (pre_ok (b! "null")))) (pre_ite (pre_ok _) (harr _ _ _ _ _)))
    split <;> rfl
  | array ins es n isba => exact harr ins es n isba p
  | ptr i => exact pre_withRead _ (fun a _ => pre_ite (hr path i (.heap a)) (pre_ok _))
  | unsupported t => exact pre_fail _

theorem pre_run (hl : FmtLong W.fmt) (h : HonestAppend H.meth) : ∀ (n : Nat) (path : Path) (i : Instr) (p : Loc),
    Pre (run W H o n path i p)
  | 0, _, _, _ => pre_nofuel
  | n + 1, path, i, p => pre_exec hl h (pre_run hl h n) path i p

/-! ## On values -/

theorem pre_marshalerV (h : HonestAppend M) (path : Path) (m : MethKind) (t : TId) (hp : Bool) (v : Val) :
    Pre (encodeMarshalerV W M o path m t hp v) := by
  have hgo : Pre (fun dst => match receiverV W (if hp = true then W.ptrTo t else t) hp v with
      | some (rt, x) => callMeth W o m (if hp = true then W.ptrTo t else t) (M path m · rt x ·) dst
      | none => .bad) := by
    cases receiverV W (if hp = true then W.ptrTo t else t) hp v with
    | none => exact pre_bad
    | some x => exact pre_callMeth m _ (fun ctx hm => h path m ctx x.1 x.2 hm)
  unfold encodeMarshalerV
  refine pre_ite ?_ hgo
  cases v <;> first | exact pre_ok _ | exact hgo

theorem pre_appendJSONV {rec : RecV} (hr : ∀ path i v, Pre (rec path i v)) (path : Path) (v : Val) :
    Pre (appendJSONV W rec path v) := by
  unfold appendJSONV
  cases v <;> first | exact pre_panic | exact pre_bad | skip
  next t v =>
  simp only
  cases instrFor W.E W.tfuel t with
  | none => exact pre_nofuel
  | some i => exact hr _ _ _

theorem pre_syncMapKeyV {rec : RecV} (hr : ∀ path i v, Pre (rec path i v)) (path : Path) (v : Val) :
    Pre (appendSyncMapKeyV W o rec path v) := by
  unfold appendSyncMapKeyV
  cases v <;> first | exact pre_fail _ | exact pre_bad | skip
  next t v =>
  simp only
  refine pre_ite (pre_fail _) (pre_ite ?_ ?_)
  · cases v <;> first | exact pre_bad | exact pre_map (encodeString_eq _ · _)
  · exact pre_congr (fun dst => by
      generalize appendJSONV W rec path (Val.iface t v) _ = r
      cases r <;> rfl) (pre_quote _ (pre_appendJSONV hr path (.iface t v)))

theorem pre_execV (hl : FmtLong W.fmt) (h : HonestAppend M) {rec : RecV} (hr : ∀ path i v, Pre (rec path i v)) (path : Path)
    (i : Instr) (v : Val) : Pre (execV W M o rec path i v) := by
  have harr : ∀ ins isba vs, Pre (encodeArrayV o rec path ins isba vs) := fun ins isba vs =>
    pre_ite (pre_withRead _ (fun b _ => pre_byteArray b o)) (pre_arrayV hr path ins vs 0)
  cases i with
  | goType s =>
    cases s with
    | rawMessage => exact pre_withRead _ (fun s _ => pre_map (encodeRawMessage_eq s · o))
    | syncMap =>
      cases v <;> first | exact pre_bad | skip
      exact pre_entries W o (fun n a => pre_syncMapKeyV hr _ _) (fun n a => pre_appendJSONV hr _ _) _
    | time => cases v <;> first | exact pre_bad | exact pre_time _ _ _ _ _
    | number => cases v <;> first | exact pre_bad | exact pre_number _ _ _
    | duration =>
      cases v <;> first | exact pre_bad | skip
      next x => cases x <;> first | exact pre_bad | exact pre_duration hl _ _ _ _
  | marshaler m t hp => exact pre_marshalerV h path m t hp v
  | bool => cases v <;> first | exact pre_bad | exact pre_map (encodeBool_eq _)
  | int k => cases v <;> first | exact pre_bad | exact pre_map (encodeIntVal_eq _)
  | float w => cases v <;> first | exact pre_bad | exact pre_float hl _ _ _
  | string => cases v <;> first | exact pre_bad | exact pre_map (encodeString_eq _ · _)
  | quotedString => cases v <;> first | exact pre_bad | exact pre_map (encodeQuotedString_eq _ · _)
  | quoted i =>
    refine pre_congr (fun dst => ?_) (pre_quote true (hr path i v))
    simp only [execV, if_true]
    cases rec path i v (dst ++ b! "\"") <;> rfl
  | nilText i => cases v <;> first | exact pre_ok _ | exact hr path i _
  | inline i => exact hr path i v
  | iface =>
    by_cases hv : v = .nil
    · subst hv; exact pre_ok _
    · refine pre_congr (fun dst => ?_) (pre_appendJSONV (W := W) hr path v)
      cases v <;> first | rfl | exact absurd rfl hv
  | struct t ca =>
    refine pre_ite (pre_ok _) ?_
    cases structFieldsInstr W.E W.U W.grow W.sort W.tfuel t ca with
    | none => exact pre_nofuel
    | some fl => exact pre_congr (fun dst => structLoopV_G o rec path v fl 0 true dst) (pre_structG o _ hr path fl 0 true)
  | map t ki vi =>
    cases v <;> first | exact pre_bad | skip
    · refine pre_congr (fun dst => ?_) (pre_ite (c := bmHas o.flags .nilMapEmpty = true) (pre_ok (b! "{}")) (pre_ok (b! "null")))
      simp only [execV]
      split <;> rfl
    · exact pre_ite (pre_ok _) (pre_entries W o (fun n a => hr _ _ _) (fun n a => hr _ _ _) _)
  | byteSlice => exact pre_withRead _ (fun b _ => pre_map (encodeByteSlice_eq b · _ _))
  | slice ins es =>
    cases v <;> first | exact pre_bad | skip
    · refine pre_congr (fun dst => ?_) (pre_ite (c := bmHas o.flags .nilSliceEmpty = true) (pre_ok (b! "[]")) (pre_ok (b! "null")))
      simp only [execV]
      split <;> rfl
    · exact pre_ite (pre_ok _) (harr _ _ _)
  | array ins es n isba => cases v <;> first | exact pre_bad | exact harr _ _ _
  | ptr i => cases v <;> first | exact pre_bad | exact pre_ok _ | exact hr path i _
  | unsupported t => exact pre_fail _

theorem pre_runV (hl : FmtLong W.fmt) (h : HonestAppend M) : ∀ (n : Nat) (path : Path) (i : Instr) (v : Val),
    Pre (runV W M o n path i v)
  | 0, _, _, _ => pre_nofuel
  | n + 1, path, i, v => pre_execV hl h (pre_runV hl h n) path i v

end Jettison.Proofs
