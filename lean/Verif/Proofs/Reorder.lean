import Verif.Proofs.Members

/-! # The order of members is all that UnsortedMap and the iteration order change -/

namespace Jettison.Proofs
open Jettison Jettison.Spec Jettison.Model

theorem objectOf_end (ms : List (Bytes × Bytes)) : ∃ x, objectOf ms = x ++ b! "}" := ⟨_, rfl⟩

/-- Reordered texts are the same from the last brace on. -/
theorem reordered_end {b b' : Bytes} (h : Reordered b b') : b = b' ∨ ∃ x y c, b = x ++ (c! '}' :: c) ∧ b' = y ++ (c! '}' :: c) := by
  induction h with
  | same b => exact .inl rfl
  | @cat a a' b b' _ _ ih1 ih2 =>
    rcases ih2 with rfl | ⟨x, y, c, rfl, rfl⟩
    · rcases ih1 with rfl | ⟨x, y, c, rfl, rfl⟩
      · exact .inl rfl
      · exact .inr ⟨x, y, c ++ b, by simp, by simp⟩
    · exact .inr ⟨a ++ x, a' ++ y, c, by simp, by simp⟩
  | object _ _ _ _ _ => exact .inr ⟨_, _, [], rfl, rfl⟩

theorem nullEnd_brace (x c : Bytes) : nullEnd (x ++ (c! '}' :: c)) = (decide (4 ≤ c.length) && decide (c.drop (c.length - 4) = b! "null")) := by
  by_cases h : 4 ≤ c.length
  · have e : x ++ (c! '}' :: c) = (x ++ [c! '}']) ++ c := by simp
    have h1 : decide (4 ≤ (x ++ [c! '}'] ++ c).length) = true := by simp; omega
    rw [e, nullEnd, drop_tail h, h1]
    simp [h]
  · have h2 : decide (4 ≤ c.length) = false := by simpa using h
    rw [h2, Bool.false_and, nullEnd]
    simp only [Bool.and_eq_false_iff, decide_eq_false_iff_not]
    by_cases h4 : 4 ≤ (x ++ (c! '}' :: c)).length
    · right
      intro he
      have hm : c! '}' ∈ (x ++ (c! '}' :: c)).drop ((x ++ (c! '}' :: c)).length - 4) := by
        have : (x ++ (c! '}' :: c)).length - 4 ≤ x.length := by simp at h4 ⊢; omega
        rw [List.drop_append_of_le_length this]
        simp
      rw [he] at hm
      revert hm; decide
    · exact .inl h4

theorem reordered_nullEnd {b b' : Bytes} (h : Reordered b b') : nullEnd b' = nullEnd b := by
  rcases reordered_end h with rfl | ⟨x, y, c, rfl, rfl⟩
  · rfl
  · rw [nullEnd_brace, nullEnd_brace]

theorem reordered_commas {l l' : List Bytes} (h : All2 Reordered l l') : Reordered (commas l) (commas l') := by
  induction h with
  | nil => exact .same _
  | cons h1 h2 ih =>
    cases h2 with
    | nil => exact h1
    | cons h3 h4 => exact .cat (.cat h1 (.same _)) ih

/-- The options are the same except possibly for UnsortedMap. -/
structure ButSort (o o' : EncOpts) : Prop where
  has : ∀ g, g ≠ .unsortedMap → bmHas o'.flags g = bmHas o.flags g
  ctx : o'.ctx = o.ctx
  layout : o'.layout = o.layout
  dur : o'.durFmt = o.durFmt
  denied : ∀ name, o'.isDeniedField name = o.isDeniedField name

theorem ButSort.esc {o o' : EncOpts} (h : ButSort o o') : o'.esc = o.esc := by
  simp only [EncOpts.esc, h.has .noStringEscaping (by decide), h.has .noHTMLEscaping (by decide), h.has .noUTF8Coercion (by decide)]

theorem ButSort.callMeth {o o' : EncOpts} (h : ButSort o o') {W : World} {m : MethKind} {t : TId} {call : Option Ctx → Bytes → MethRes} {dst : Bytes} :
    callMeth W o' m t call dst = callMeth W o m t call dst := by
  cases m <;> simp only [Model.callMeth, h.ctx, relayJSON, h.has .noCompact (by decide), h.has .noHTMLEscaping (by decide)]

theorem ButSort.key {o o' : EncOpts} (h : ButSort o o') (name : Bytes) : fieldKey o' name = fieldKey o name := by
  simp only [fieldKey, h.has .noHTMLEscaping (by decide)]

theorem ButSort.field {o o' : EncOpts} (h : ButSort o o') (f : FInstr) (v : Val) : fieldV o' f v = fieldV o f v := by
  simp only [fieldV, h.denied]

theorem entries_reordered {α : Type} {W W' : World} {o o' : EncOpts} {kf vf kf' vf' : Nat → α → Bytes → Res} (hk : ∀ n a, Pre (kf n a)) (hv : ∀ n a, Pre (vf n a))
    (hk' : ∀ n a, Pre (kf' n a)) (hv' : ∀ n a, Pre (vf' n a)) (hsort : SortOk W.sort) (hsort' : SortOk W'.sort) {l l' : List α} (hp : l.Perm l')
    (hkk : ∀ a ∈ l, ∀ n n' x y, kf n a [] = .ok x → kf' n' a [] = .ok y → Reordered x y)
    (hvv : ∀ a ∈ l, ∀ n n' x y, vf n a [] = .ok x → vf' n' a [] = .ok y → Reordered x y) {b b' : Bytes}
    (h : encodeEntries W o kf vf l [] = .ok b) (h' : encodeEntries W' o' kf' vf' l' [] = .ok b') : Reordered b b' := by
  obtain ⟨ms, p1, t1, rfl, -, -⟩ := entries_members hk hv hsort h
  obtain ⟨ms', p2, t2, rfl, -, -⟩ := entries_members hk' hv' hsort' h'
  -- bring the second list in the order of the first
  obtain ⟨ns', q1, q2⟩ := perm_map_inv Prod.fst ((p1.trans hp).trans p2.symm) rfl
  have key : ∀ (i : Nat) m m', (ms.map Prod.snd)[i]? = some m → (ns'.map Prod.snd)[i]? = some m' → Reordered m.1 m'.1 ∧ Reordered m.2 m'.2 := by
    intro i m m' hm hm'
    rw [List.getElem?_map, Option.map_eq_some_iff] at hm hm'
    obtain ⟨a, ha, rfl⟩ := hm
    obtain ⟨a', ha', rfl⟩ := hm'
    have e := congrArg (·[i]?) q2
    simp only [List.getElem?_map, ha, ha', Option.map_some, Option.some.injEq] at e
    obtain ⟨n, h1, h2⟩ := t1 a (List.mem_of_getElem? ha)
    obtain ⟨n', h3, h4⟩ := t2 a' (q1.mem_iff.mp (List.mem_of_getElem? ha'))
    have hin : a.1 ∈ l := p1.mem_iff.mp (List.mem_map_of_mem (List.mem_of_getElem? ha))
    rw [e] at h3 h4
    exact ⟨hkk a.1 hin n n' _ _ h1 h3, hvv a.1 hin n n' _ _ h2 h4⟩
  have r := Reordered.object (ms := ms.map Prod.snd) (ms' := ms'.map Prod.snd) (ns := ms.map Prod.snd) (ns' := ns'.map Prod.snd) (.refl _) (q1.map _)
    (by have := congrArg List.length q2; simpa using this.symm) (fun i m m' h h' => (key i m m' h h').1) (fun i m m' h h' => (key i m m' h h').2)
  simpa [objectOf, List.map_map, Function.comp_def] using r

/-! ## Runs -/

variable {W : World} {M : MethV} {o o' : EncOpts} {rec rec' : RecV} {t : TId} {v : Val} {pt : TId → TId}

/-- The calls on parts of the value give reordered texts. -/
def PartsRe (E : Env) (t : TId) (v : Val) (rec rec' : RecV) : Prop :=
  ∀ {t' ca i v'}, TypedI E t' ca i → HasType E t' v' → Within E t v t' v' → ∀ path path' b b', rec path i v' [] = .ok b → rec' path' i v' [] = .ok b' →
    Reordered b b'

theorem appendJSONV_reorder {ord : Path → Nat → List Nat} (h : PartsRe W.E t v rec rec') {x : Val} (hx : InIface W.E x)
    (hw : ∀ d y, x = .iface d y → Within W.E t v d y) (path path' : Path) (b b' : Bytes) (hr : appendJSONV W rec path x [] = .ok b)
    (hr' : appendJSONV { W with order := ord } rec' path' x [] = .ok b') : Reordered b b' := by
  rcases inIface_cases hx with rfl | ⟨d, y, rfl, hy⟩
  · simp [appendJSONV] at hr
  · simp only [appendJSONV] at hr hr'
    cases hi : instrFor W.E W.tfuel d with
    | none => rw [hi] at hr; cases hr
    | some i => rw [hi] at hr hr'; exact h (instrFor_typedI hi) hy (hw d y rfl) path path' b b' hr hr'

theorem quote_reorder {f f' : Bytes → Res} (hf : Pre f) (hf' : Pre f') (h : ∀ b b', f [] = .ok b → f' [] = .ok b' → Reordered b b') {q : Bytes} {b b' : Bytes}
    (hr : (match f q with | .ok d => Res.ok (d ++ q) | r => r) = .ok b) (hr' : (match f' q with | .ok d => Res.ok (d ++ q) | r => r) = .ok b') :
    Reordered b b' := by
  cases hx : f q with
  | ok d =>
    cases hy : f' q with
    | ok d' =>
      obtain ⟨b1, h1, rfl⟩ := (pre_ok_iff hf).mp hx
      obtain ⟨b2, h2, rfl⟩ := (pre_ok_iff hf').mp hy
      rw [hx] at hr; rw [hy] at hr'
      cases hr; cases hr'
      exact .cat (.cat (.same _) (h _ _ h1 h2)) (.same _)
    | _ => rw [hy] at hr'; cases hr'
  | _ => rw [hx] at hr; cases hr

/-- Members of the same field with reordered texts. -/
def ReMember (m m' : FInstr × Val × Bytes) : Prop := m'.1 = m.1 ∧ Reordered m.2.2 m'.2.2

theorem emits_reorder {get : FInstr → Option (Option Val)} {txt txt' : Nat → FInstr → Val → Bytes → Prop} {fs0 : List FInstr}
    (h : ∀ f ∈ fs0, ∀ x, get f = some (some x) → ∀ i i' b b', txt i f x b → txt' i' f x b' → Reordered b b') :
    ∀ {i : Nat} {fs : List FInstr} {ms : List (FInstr × Val × Bytes)}, Emits get txt i fs ms → (∀ f ∈ fs, f ∈ fs0) → ∀ {ms'}, Emits get txt' i fs ms' →
      All2 ReMember ms ms' := by
  intro i fs ms hm
  induction hm with
  | nil => intro _ ms' hm'; cases hm'; exact .nil
  | skip h1 _ ih =>
    intro hsub ms' hm'
    cases hm' with
    | skip _ h2 => exact ih (fun f hf => hsub f (by simp [hf])) h2
    | emit h2 => rw [h1] at h2; cases h2
  | emit h1 h2 _ ih =>
    intro hsub ms' hm'
    cases hm' with
    | skip h3 => rw [h1] at h3; cases h3
    | emit h3 h4 h5 =>
      rw [h1] at h3; cases h3
      exact .cons ⟨rfl, h _ (hsub _ (by simp)) _ h1 _ _ _ _ h2 h4⟩ (ih (fun f hf => hsub f (by simp [hf])) h5)

theorem objTail_reorder (hb : ButSort o o') {ms ms' : List (FInstr × Val × Bytes)} (h : All2 ReMember ms ms') : Reordered (objTail o ms) (objTail o' ms') := by
  induction h with
  | nil => exact .same _
  | @cons m m' ms ms' h1 _ ih =>
    obtain ⟨h1, h2⟩ := h1
    have hd : dropNull m' = dropNull m := by simp only [dropNull, h1, reordered_nullEnd h2]
    simp only [objTail, hd]
    refine .cat ?_ ih
    split
    · exact .same _
    · simp only [memberText, h1, hb.key]
      exact .cat (.same _) (.cat (.same _) h2)

theorem objText_reorder (hb : ButSort o o') {ms ms' : List (FInstr × Val × Bytes)} (h : All2 ReMember ms ms') : Reordered (objText o ms) (objText o' ms') := by
  cases h with
  | nil => exact .same _
  | @cons m m' ms ms' h1 h3 =>
    obtain ⟨h1, h2⟩ := h1
    have hd : dropNull m' = dropNull m := by simp only [dropNull, h1, reordered_nullEnd h2]
    simp only [objText, hd]
    refine .cat (.cat (.same _) ?_) (objTail_reorder hb h3)
    split
    · exact .same _
    · simp only [memberText, h1, hb.key]
      exact .cat (.same _) h2

theorem all2_of_index {α β : Type} {R : α → β → Prop} : ∀ {l : List α} {m : List β}, m.length = l.length →
    (∀ (i : Nat) a b, l[i]? = some a → m[i]? = some b → R a b) → All2 R l m
  | [], [], _, _ => .nil
  | [], _ :: _, h, _ => by simp at h
  | _ :: _, [], h, _ => by simp at h
  | a :: l, b :: m, h, hr => .cons (hr 0 a b rfl rfl) (all2_of_index (by simpa using h) fun i x y hx hy => hr (i + 1) x y hx hy)

theorem array_reorder (hp : ∀ path i v, Pre (rec path i v)) (hp' : ∀ path i v, Pre (rec' path i v)) {path path' : Path} {ins : Instr} {vs : List Val}
    (h : ∀ x ∈ vs, ∀ path path' b b', rec path ins x [] = .ok b → rec' path' ins x [] = .ok b' → Reordered b b') {b b' : Bytes}
    (hr : arrayLoopV rec path ins 0 vs [] = .ok b) (hr' : arrayLoopV rec' path' ins 0 vs [] = .ok b') : Reordered b b' := by
  obtain ⟨ts, h1, h2, rfl⟩ := (arrayV_ok hp path ins vs 0 [] b).mp hr
  obtain ⟨ts', h1', h2', rfl⟩ := (arrayV_ok hp' path' ins vs 0 [] b').mp hr'
  simp only [if_true, List.nil_append]
  refine .cat (.cat (.same _) (reordered_commas (all2_of_index (h1'.trans h1.symm) fun i a a' ha ha' => ?_))) (.same _)
  obtain ⟨x, hx⟩ : ∃ x, vs[i]? = some x := by
    cases hx : vs[i]? with
    | some x => exact ⟨x, rfl⟩
    | none =>
      rw [List.getElem?_eq_none_iff] at hx
      rw [List.getElem?_eq_none (by omega)] at ha
      cases ha
  exact h x (List.mem_of_getElem? hx) _ _ _ _ (h2 i x a hx ha) (h2' i x a' hx ha')

theorem execV_reorder (G : GoTypes W.E pt) {ord : Path → Nat → List Nat} (ho : OrderOk W.order) (ho' : OrderOk ord) (hsort : SortOk W.sort)
    (hb : ButSort o o') (hp : ∀ path i v, Pre (rec path i v)) (hp' : ∀ path i v, Pre (rec' path i v)) (hM : PathFree M)
    {ca : Bool} {i : Instr} (hty : TypedI W.E t ca i) (hv : HasType W.E t v)
    (h : PartsRe W.E t v rec rec') (path path' : Path) (b b' : Bytes) (hr : execV W M o rec path i v [] = .ok b)
    (hr' : execV { W with order := ord } M o' rec' path' i v [] = .ok b') : Reordered b b' := by
  have hsame : execV W M o rec path i v [] = execV { W with order := ord } M o' rec' path' i v [] → Reordered b b' := by
    intro e; rw [hr, hr'] at e; cases e; exact .same _
  rcases hty with hty | ⟨j, rfl, hj⟩
  · cases hty with
    | @goType _ _ s hs =>
      cases s with
      | syncMap =>
        obtain ⟨kvs, rfl, h1, h2⟩ := has_smap G hs hv
        simp only [execV, encodeSpecialV] at hr hr'
        have hperm : (W.visit path kvs).Perm (World.visit { W with order := ord } path' kvs) :=
          (visit_perm ho path kvs).trans (visit_perm (W := { W with order := ord }) ho' path' kvs).symm
        refine entries_reordered (fun n a => pre_syncMapKeyV hp _ _) (fun n a => pre_appendJSONV hp _ _) (fun n a => pre_syncMapKeyV hp' _ _)
          (fun n a => pre_appendJSONV hp' _ _) hsort hsort hperm ?_ ?_ hr hr'
        · intro a ha n n' x x' hx hx'
          have ha := (visit_perm ho path kvs).mem_iff.mp ha
          rcases inIface_cases (h1 a ha) with he | ⟨d, y, he, hy⟩
          · rw [he] at hx; simp [appendSyncMapKeyV] at hx
          · have hin := h1 a ha
            have hw : ∀ d y, a.1 = .iface d y → Within W.E t (.smap kvs) d y := fun d y hy => .step .refl (.skey ha hy)
            rw [he] at hx hx' hin hw
            simp only [appendSyncMapKeyV] at hx hx'
            split at hx
            · cases hx
            · next hq =>
              rw [if_neg hq] at hx'
              split at hx
              · next hst =>
                rw [if_pos hst, hb.esc] at hx'
                rw [hx] at hx'; cases hx'; exact .same _
              · next hst =>
                rw [if_neg hst] at hx'
                have key := appendJSONV_reorder (ord := ord) h hin hw ((2 * n) :: path) ((2 * n') :: path')
                cases hqq : (!isStringK (W.E d).kind && !(W.E d).meths.text) with
                | true =>
                  simp only [hqq, if_true] at hx hx'
                  exact quote_reorder (pre_appendJSONV hp _ _) (pre_appendJSONV hp' _ _) key hx hx'
                | false =>
                  simp only [hqq, Bool.false_eq_true, if_false] at hx hx'
                  cases hz : appendJSONV W rec ((2 * n) :: path) (.iface d y) [] with
                  | ok z =>
                    cases hz' : appendJSONV { W with order := ord } rec' ((2 * n') :: path') (.iface d y) [] with
                    | ok z' => rw [hz] at hx; rw [hz'] at hx'; cases hx; cases hx'; exact key _ _ hz hz'
                    | _ => rw [hz'] at hx'; cases hx'
                  | _ => rw [hz] at hx; cases hx
        · intro a ha n n' x x' hx hx'
          have ha := (visit_perm ho path kvs).mem_iff.mp ha
          exact appendJSONV_reorder h (h2 a ha) (fun d y hy => .step .refl (.selem ha hy)) _ _ _ _ hx hx'
      | duration =>
        apply hsame
        simp only [execV]
        cases v with
        | int x => cases x <;> simp only [encodeSpecialV, hb.dur]
        | _ => rfl
      | time =>
        apply hsame
        simp only [execV]
        cases v <;> simp only [encodeSpecialV, hb.layout, hb.has .unixTime (by decide)]
      | number =>
        apply hsame
        simp only [execV]
        cases v <;> simp only [encodeSpecialV, hb.has .noNumberValidation (by decide)]
      | rawMessage =>
        apply hsame
        simp only [execV, encodeSpecialV, encodeRawMessage, hb.has .noCompact (by decide), hb.has .noHTMLEscaping (by decide)]
    | @marsh _ _ m hm hs =>
      apply hsame
      have : M path = M path' := by funext m c t v d; exact hM _ _ _ _ _ _ _
      simp only [execV, encodeMarshalerV, this, hb.callMeth]
      rfl
    | @marshP _ _ m hn hm hc hk hs =>
      apply hsame
      have : M path = M path' := by funext m c t v d; exact hM _ _ _ _ _ _ _
      simp only [execV, encodeMarshalerV, this, hb.callMeth]
      rfl
    | @quoted _ _ j hj =>
      simp only [execV, List.nil_append] at hr hr'
      exact quote_reorder (hp _ _ _) (hp' _ _ _) (h (.inl hj) hv .refl path path') hr hr'
    | @nilText _ _ j hpk hj =>
      cases v with
      | nil => exact hsame rfl
      | _ => exact h (.inl hj) hv .refl path path' b b' hr hr'
    | @iface _ _ n hk hm =>
      rcases has_iface G hk hv with rfl | ⟨d, x, rfl, hx⟩
      · exact hsame rfl
      · simp only [execV] at hr hr'
        exact appendJSONV_reorder h (.val hx) (fun d' y e => by cases e; exact .step .refl .iface) _ _ _ _ hr hr'
    | struct hk hs =>
      have hst : IsStruct W.E t := by
        revert hk
        cases hkk : (W.E t).kind <;> simp [isStructK]
        exact ⟨_, hkk⟩
      simp only [execV] at hr hr'
      split at hr
      · next h0 => rw [if_pos h0] at hr'; cases hr; cases hr'; exact .same _
      · next h0 =>
        rw [if_neg h0] at hr'
        cases hfl : structFieldsInstr W.E W.U W.grow W.sort W.tfuel t ca with
        | none => rw [hfl] at hr; cases hr
        | some fl =>
          rw [hfl] at hr hr'
          simp only at hr hr'
          obtain ⟨l, hl, _, hok⟩ := structFieldsInstr_ok hfl
          rw [structLoopV_G] at hr hr'
          obtain ⟨ms, hms, rfl⟩ := (structG_ok o _ hp path fl 0 true [] b).mp hr
          obtain ⟨ms', hms', rfl⟩ := (structG_ok o' _ hp' path' fl 0 true [] b').mp hr'
          have hget : (fun f => fieldV o' f v) = fun f => fieldV o f v := funext fun f => hb.field f v
          rw [hget] at hms'
          simp only [if_true, List.nil_append]
          refine objText_reorder hb (emits_reorder (fs0 := fl) ?_ hms (fun _ h => h) hms')
          intro f hf x hx i i' b b' hb1 hb2
          obtain ⟨-, ft, hft⟩ := hok f hf
          have hat := fieldAt_iff.mpr (fieldV_route hx)
          obtain ⟨h1, h2⟩ := fieldAt_type G hat hst hv hft.typ
          exact h (.inl hft.instr) h1 h2 _ _ b b' hb1 hb2
    | map hk hkm hki hvi =>
      rcases has_map G hk hv with rfl | ⟨kvs, rfl, h1, h2⟩
      · apply hsame; simp only [execV, hb.has .nilMapEmpty (by decide)]
      · simp only [execV] at hr hr'
        split at hr
        · next h0 => rw [if_pos h0] at hr'; cases hr; cases hr'; exact .same _
        · next h0 =>
          rw [if_neg h0] at hr'
          have hperm : (W.visit path kvs).Perm (World.visit { W with order := ord } path' kvs) :=
            (visit_perm ho path kvs).trans (visit_perm (W := { W with order := ord }) ho' path' kvs).symm
          refine entries_reordered (fun n a => hp _ _ _) (fun n a => hp _ _ _) (fun n a => hp' _ _ _) (fun n a => hp' _ _ _) hsort hsort hperm ?_ ?_ hr hr'
          · intro a ha n n' x x' hx hx'
            have ha := (visit_perm ho path kvs).mem_iff.mp ha
            exact h (.inl hki) (h1 a ha) (.step .refl (.key hk ha)) _ _ _ _ hx hx'
          · intro a ha n n' x x' hx hx'
            have ha := (visit_perm ho path kvs).mem_iff.mp ha
            exact h (.inl hvi) (h2 a ha) (.step .refl (.elem hk ha)) _ _ _ _ hx hx'
    | slice hk hi =>
      rcases has_slice G hk hv with rfl | ⟨vs, rfl, h1⟩
      · apply hsame; simp only [execV, hb.has .nilSliceEmpty (by decide)]
      · simp only [execV, encodeArrayV, Bool.false_and, Bool.false_eq_true, if_false] at hr hr'
        split at hr
        · next h0 => rw [if_pos h0] at hr'; cases hr; cases hr'; exact .same _
        · next h0 =>
          rw [if_neg h0] at hr'
          exact array_reorder hp hp' (fun x hx => h (.inl hi) (h1 x hx) (.step .refl (.slice hk hx))) hr hr'
    | array hk hbb hi =>
      obtain ⟨vs, rfl, -, h1⟩ := has_array G hk hv
      simp only [execV, encodeArrayV, hb.has .byteArrayAsString (by decide), hb.esc] at hr hr'
      split at hr
      · next h0 => rw [if_pos h0] at hr'; rw [hr] at hr'; cases hr'; exact .same _
      · next h0 =>
        rw [if_neg h0] at hr'
        exact array_reorder hp hp' (fun x hx => h (.inl hi) (h1 x hx) (.step .refl (.array hk hx))) hr hr'
    | ptr hk hi =>
      rcases has_ptr G hk hv with rfl | ⟨x, rfl, h1⟩
      · exact hsame rfl
      · exact h (.inl hi) h1 (.step .refl (.ptr hk)) path path' b b' hr hr'
    | byteSlice hk he => apply hsame; simp only [execV, hb.esc, hb.has .rawByteSlice (by decide)]
    | string hk => apply hsame; simp only [execV, hb.esc]
    | quotedString hk => apply hsame; simp only [execV, hb.esc]
    | _ => exact hsame rfl
  · exact h (.inl hj) hv .refl path path' b b' hr hr'

/-- Whatever the orders of iteration, and with or without UnsortedMap, the texts differ only in the
order of members. -/
theorem runV_reorder (G : GoTypes W.E pt) {ord : Path → Nat → List Nat} (ho : OrderOk W.order) (ho' : OrderOk ord) (hsort : SortOk W.sort)
    (hl : FmtLong W.fmt) (hh : HonestAppend M) (hM : PathFree M) (hb : ButSort o o') :
    ∀ (n : Nat) {t : TId} {ca : Bool} {i : Instr} {v : Val}, TypedI W.E t ca i → HasType W.E t v → ∀ path path' b b',
      runV W M o n path i v [] = .ok b → runV { W with order := ord } M o' n path' i v [] = .ok b' → Reordered b b'
  | 0, _, _, _, _, _, _, _, _, _, _, h, _ => by cases h
  | n + 1, t, ca, i, v, hty, hv, path, path', b, b', h, h' =>
    execV_reorder G ho ho' hsort hb (pre_runV hl hh n) (pre_runV (W := { W with order := ord }) hl hh n) hM hty hv
      (fun hty' hv' _ => runV_reorder G ho ho' hsort hl hh hM hb n hty' hv') path path' b b' h h'

end Jettison.Proofs
