import Verif.Spec.Maps
import Verif.Proofs.Closed
import Verif.Proofs.Parts
import Verif.Proofs.Sort

/-! # Iteration order -/

namespace Jettison.Proofs
open Jettison Jettison.Spec Jettison.Model

/-- Lists related element by element. -/
inductive All2 {α β : Type} (R : α → β → Prop) : List α → List β → Prop
  | nil : All2 R [] []
  | cons {a b l m} : R a b → All2 R l m → All2 R (a :: l) (b :: m)

theorem All2.imp {α β : Type} {R S : α → β → Prop} {l : List α} {m : List β} (h : All2 R l m) : (∀ a ∈ l, ∀ b, R a b → S a b) → All2 S l m := by
  induction h with
  | nil => exact fun _ => .nil
  | cons h _ ih => exact fun hi => .cons (hi _ (by simp) _ h) (ih fun a ha => hi a (by simp [ha]))

theorem All2.length {α β : Type} {R : α → β → Prop} {l : List α} {m : List β} (h : All2 R l m) : m.length = l.length := by
  induction h with
  | nil => rfl
  | cons _ _ ih => simp [ih]

theorem All2.perm {α β : Type} {R : α → β → Prop} {l l' : List α} (hp : l.Perm l') : ∀ {m : List β}, All2 R l m → ∃ m', m.Perm m' ∧ All2 R l' m' := by
  induction hp with
  | nil => intro m h; cases h; exact ⟨[], .nil, .nil⟩
  | cons x _ ih =>
    intro m h
    cases h with
    | cons h1 h2 =>
      obtain ⟨m', hm, hr⟩ := ih h2
      exact ⟨_, .cons _ hm, .cons h1 hr⟩
  | swap x y l =>
    intro m h
    cases h with
    | cons h1 h2 =>
      cases h2 with
      | cons h2 h3 => exact ⟨_, .swap _ _ _, .cons h2 (.cons h1 h3)⟩
  | trans _ _ ih1 ih2 =>
    intro m h
    obtain ⟨m1, hm1, h1⟩ := ih1 h
    obtain ⟨m2, hm2, h2⟩ := ih2 h1
    exact ⟨m2, hm1.trans hm2, h2⟩

theorem All2.pairwise {α β : Type} {R : α → β → Prop} {S : α → α → Prop} {T : β → β → Prop} {l : List α} {m : List β} (h : All2 R l m)
    (hst : ∀ a b x y, S a b → R a x → R b y → T x y) (hs : l.Pairwise S) : m.Pairwise T := by
  induction h with
  | nil => exact .nil
  | @cons a b l m h1 h2 ih =>
    rw [List.pairwise_cons] at hs ⊢
    refine ⟨fun y hy => ?_, ih hs.2⟩
    have : ∃ c ∈ l, R c y := by
      clear ih hs h1
      induction h2 with
      | nil => simp at hy
      | cons h1 _ ih =>
        rcases List.mem_cons.mp hy with rfl | hy
        · exact ⟨_, by simp, h1⟩
        · obtain ⟨c, hc, hr⟩ := ih hy; exact ⟨c, by simp [hc], hr⟩
    obtain ⟨c, hc, hr⟩ := this
    exact hst _ _ _ _ (hs.1 c hc) h1 hr

theorem entryTexts_all2 {α : Type} {kf vf : Nat → α → Bytes → Res} : ∀ {es : List α} {n : Nat} {ts : List (Bytes × Bytes)}, EntryTexts kf vf n es ts →
    All2 (fun e t => ∃ n, kf n e [] = .ok t.1 ∧ vf n e [] = .ok t.2) es ts
  | [], n, ts, h => by
    obtain ⟨h1, -⟩ := h
    simp at h1; subst h1; exact .nil
  | e :: es, n, ts, h => by
    obtain ⟨k, v, ts', rfl, hk, hv, h⟩ := entryTexts_cons.mp h
    exact .cons ⟨n, hk, hv⟩ (entryTexts_all2 h)

theorem all2_entryTexts {α : Type} {kf vf : Nat → α → Bytes → Res} {es : List α} {ts : List (Bytes × Bytes)}
    (h : All2 (fun e t => ∀ n, kf n e [] = .ok t.1 ∧ vf n e [] = .ok t.2) es ts) : ∀ n, EntryTexts kf vf n es ts := by
  induction h with
  | nil => exact fun n => ⟨rfl, by simp⟩
  | cons h _ ih => exact fun n => entryTexts_cons.mpr ⟨_, _, _, rfl, (h n).1, (h n).2, ih _⟩

theorem visit_perm {α : Type} {W : World} (hw : OrderOk W.order) (path : Path) (es : List α) : (W.visit path es).Perm es := by
  have h := (hw path es.length).filterMap (es[·]?)
  have e : (List.range es.length).filterMap (es[·]?) = es := by
    clear h
    induction es with
    | nil => rfl
    | cons a l ih =>
      rw [List.length_cons, List.range_succ_eq_map, List.filterMap_cons]
      simp only [List.getElem?_cons_zero, List.filterMap_map, Function.comp_def, List.getElem?_cons_succ, ih]
  rw [e] at h
  exact h

theorem strictWeak_kv : StrictWeak kvLess :=
  strictWeak_of_key Prod.fst kvLess (fun a => bytesLess_irrefl _) (fun a b c => bytesLess_trans _ _ _) (fun a b => bytesLess_total _ _)
    (fun a b h => by simp only [kvLess, h, bytesLess_irrefl])

theorem innerKey_eq (k : Bytes) : innerKey k = keyBody k := by
  simp only [innerKey, keyBody, slice]
  rw [List.dropLast_eq_take, List.length_drop, List.take_drop]
  rcases Nat.lt_or_ge k.length 1 with h | h
  · have : k = [] := List.eq_nil_of_length_eq_zero (by omega)
    subst this; rfl
  · rw [show 1 + (k.length - 1 - 1) = if k.length = 1 then 1 else k.length - 1 by split <;> omega]
    split
    · next h1 =>
      rw [h1]
      rw [List.drop_of_length_le (l := k.take (1 - 1)) (by simp), List.drop_of_length_le (by simp; omega)]
    · rfl

theorem pairwise_inj {α β : Type} (f : α → β) {l : List α} (h : l.Pairwise fun x y => f x ≠ f y) {x y : α} (hx : x ∈ l) (hy : y ∈ l) (he : f x = f y) :
    x = y := by
  induction h with
  | nil => simp at hx
  | cons h1 _ ih =>
    rcases List.mem_cons.mp hx with rfl | hx'
    · rcases List.mem_cons.mp hy with rfl | hy'
      · rfl
      · exact absurd he (h1 _ hy')
    · rcases List.mem_cons.mp hy with rfl | hy'
      · exact absurd he.symm (h1 _ hx')
      · exact ih hx' hy'

theorem pairwise_all {α : Type} {S : α → α → Prop} {l : List α} (h : l.Pairwise S) (hr : ∀ x, S x x) (hs : ∀ x y, S x y → S y x) :
    ∀ x ∈ l, ∀ y ∈ l, S x y := by
  intro x hx y hy
  obtain ⟨i, hi, rfl⟩ := List.getElem_of_mem hx
  obtain ⟨j, hj, rfl⟩ := List.getElem_of_mem hy
  rw [List.pairwise_iff_getElem] at h
  rcases Nat.lt_trichotomy i j with hij | rfl | hij
  · exact h i j hi hj hij
  · exact hr _
  · exact hs _ _ (h j i hj hi hij)

/-- The entries can be visited in any order. -/
theorem entries_order {α : Type} {W W' : World} {o : EncOpts} {kf vf kf' vf' : Nat → α → Bytes → Res} (hk : ∀ n a, Pre (kf n a)) (hv : ∀ n a, Pre (vf n a))
    (hk' : ∀ n a, Pre (kf' n a)) (hv' : ∀ n a, Pre (vf' n a)) (hs : ∀ {β : Type} (lt : β → β → Bool) l, W'.sort lt l = W.sort lt l) (hsort : SortOk W.sort) {l l' : List α} (hp : l.Perm l')
    (hu : bmHas o.flags .unsortedMap = false)
    (hkk : ∀ a ∈ l, ∀ n n' x, kf n a [] = .ok x → kf' n' a [] = .ok x) (hvv : ∀ a ∈ l, ∀ n n' x, vf n a [] = .ok x → vf' n' a [] = .ok x)
    (hd : l.Pairwise fun a b => ∀ n m x y x' y', kf n a [] = .ok x → kf m b [] = .ok y → vf n a [] = .ok x' → vf m b [] = .ok y' →
      keyBody x = keyBody y → x = y ∧ x' = y') {dst out : Bytes}
    (h : encodeEntries W o kf vf l dst = .ok out) : encodeEntries W' o kf' vf' l' dst = .ok out := by
  obtain ⟨ts, hts, h⟩ := (entries_ok hk hv l dst out).mp h
  rcases h with ⟨h, -⟩ | ⟨-, h2, rfl⟩
  · rw [hu] at h; cases h
  · have h1 := entryTexts_all2 hts
    have hdist : ts.Pairwise fun x y => keyBody x.1 = keyBody y.1 → x = y :=
      h1.pairwise (fun a b x y hab ⟨n, hx, hx'⟩ ⟨m, hy, hy'⟩ he => Prod.ext_iff.mpr (hab n m _ _ _ _ hx hy hx' hy' he)) hd
    obtain ⟨ts', hperm, h1'⟩ := All2.perm hp (h1.imp (S := fun e t => ∀ n, kf' n e [] = .ok t.1 ∧ vf' n e [] = .ok t.2)
      (fun a ha t ⟨n, hx, hy⟩ n' => ⟨hkk a ha n n' _ hx, hvv a ha n n' _ hy⟩))
    refine (entries_ok hk' hv' l' dst _).mpr ⟨ts', all2_entryTexts h1' 0, .inr ⟨hu, fun t ht => h2 t (hperm.mem_iff.mpr ht), ?_⟩⟩
    have key : W.sort kvLess (ts.map fun t => (innerKey t.1, entryText t)) = W.sort kvLess (ts'.map fun t => (innerKey t.1, entryText t)) := by
      have p1 := hsort.perm kvLess (ts.map fun t => (innerKey t.1, entryText t))
      have p2 := hsort.perm kvLess (ts'.map fun t => (innerKey t.1, entryText t))
      have hpm := hperm.map fun t => (innerKey t.1, entryText t)
      refine List.Perm.eq_of_pairwise (le := fun a b => kvLess b a = false) ?_ (hsort.sorted _ _ strictWeak_kv) (hsort.sorted _ _ strictWeak_kv)
        (p1.trans (hpm.trans p2.symm))
      intro a b ha hb hab hba
      have hkey : a.1 = b.1 := bytesLess_total _ _ hba hab
      have ha' := p1.mem_iff.mp ha
      have hb' := hpm.mem_iff.mpr (p2.mem_iff.mp hb)
      obtain ⟨x, hx, rfl⟩ := List.mem_map.mp ha'
      obtain ⟨y, hy, rfl⟩ := List.mem_map.mp hb'
      simp only [innerKey_eq] at hkey
      rw [pairwise_all hdist (fun _ _ => rfl) (fun _ _ h e => (h e.symm).symm) _ hx _ hy hkey]
    rw [hs, key]

/-! ## Runs -/

/-- Methods do not depend on where in the run they are called. -/
def PathFree (M : MethV) : Prop := ∀ p p' m c t v d, M p m c t v d = M p' m c t v d

/-- Entries of one map whose keys get the same text get the same text. -/
structure KeysApart (W : World) (M : MethV) (o : EncOpts) (t : TId) (v : Val) : Prop where
  map : ∀ t' k e kvs, Within W.E t v t' (.map kvs) → (W.E t').kind = .map k e → ∀ ki vi, KeyMade W.E k ki → TypedI W.E e false vi →
    kvs.Pairwise fun a b => ∀ n m p p' q q' x y z z', runV W M o n p ki a.1 [] = .ok x → runV W M o m p' ki b.1 [] = .ok y →
      runV W M o n q vi a.2 [] = .ok z → runV W M o m q' vi b.2 [] = .ok z' → keyBody x = keyBody y → x = y ∧ z = z'
  smap : ∀ t' kvs, Within W.E t v t' (.smap kvs) →
    kvs.Pairwise fun a b => ∀ n m p p' q q' x y z z', appendSyncMapKeyV W o (runV W M o n) p a.1 [] = .ok x →
      appendSyncMapKeyV W o (runV W M o m) p' b.1 [] = .ok y → appendJSONV W (runV W M o n) q a.2 [] = .ok z →
      appendJSONV W (runV W M o m) q' b.2 [] = .ok z' → keyBody x = keyBody y → x = y ∧ z = z'

variable {W : World} {M : MethV} {o : EncOpts} {rec rec' : RecV} {t : TId} {v : Val} {pt : TId → TId}

/-- Success of the calls on parts of the value does not depend on the order. -/
def PartsOk (E : Env) (t : TId) (v : Val) (rec rec' : RecV) : Prop :=
  ∀ {t' ca i v'}, TypedI E t' ca i → HasType E t' v' → Within E t v t' v' → ∀ path path' b, rec path i v' [] = .ok b → rec' path' i v' [] = .ok b

theorem appendJSONV_order {ord : Path → Nat → List Nat} (h : PartsOk W.E t v rec rec') {x : Val} (hx : InIface W.E x)
    (hw : ∀ d y, x = .iface d y → Within W.E t v d y) (path path' : Path) (b : Bytes) (hr : appendJSONV W rec path x [] = .ok b) :
    appendJSONV { W with order := ord } rec' path' x [] = .ok b := by
  rcases inIface_cases hx with rfl | ⟨d, y, rfl, hy⟩
  · simp [appendJSONV] at hr
  · simp only [appendJSONV] at hr ⊢
    cases hi : instrFor W.E W.tfuel d with
    | none => rw [hi] at hr; cases hr
    | some i => rw [hi] at hr; exact h (instrFor_typedI hi) hy (hw d y rfl) path path' b hr

theorem pre_ok_iff {f : Bytes → Res} (h : Pre f) {dst out : Bytes} : f dst = .ok out ↔ ∃ b, f [] = .ok b ∧ out = dst ++ b := by
  rw [h dst]
  cases f [] with
  | ok b => simp only [Res.after, Res.ok.injEq]; exact ⟨fun h => ⟨b, rfl, h.symm⟩, fun ⟨_, h1, h2⟩ => by rw [h2, h1]⟩
  | _ => simp [Res.after]

theorem quote_order {f f' : Bytes → Res} (hf : Pre f) (hf' : Pre f') (h : ∀ b, f [] = .ok b → f' [] = .ok b) {q : Bytes} {b : Bytes}
    (hr : (match f q with | .ok d => Res.ok (d ++ q) | r => r) = .ok b) : (match f' q with | .ok d => Res.ok (d ++ q) | r => r) = .ok b := by
  cases hx : f q with
  | ok d =>
    obtain ⟨b1, h1, rfl⟩ := (pre_ok_iff hf).mp hx
    rw [(pre_ok_iff hf').mpr ⟨b1, h b1 h1, rfl⟩]
    rw [hx] at hr; exact hr
  | _ => rw [hx] at hr; cases hr

theorem emits_order {fs0 fs : List FInstr} {path path' : Path} (hsub : ∀ f ∈ fs, f ∈ fs0)
    (h : ∀ f ∈ fs0, ∀ x, fieldV o f v = some (some x) → ∀ path path' b, rec path f.instr x [] = .ok b → rec' path' f.instr x [] = .ok b) {i : Nat} {ms} 
    (hm : Emits (fun f => fieldV o f v) (fun i f x b => rec (i :: path) f.instr x [] = .ok b) i fs ms) :
    Emits (fun f => fieldV o f v) (fun i f x b => rec' (i :: path') f.instr x [] = .ok b) i fs ms := by
  induction hm with
  | nil => exact .nil
  | skip h1 _ ih => exact .skip h1 (ih fun f hf => hsub f (by simp [hf]))
  | emit h1 h2 _ ih => exact .emit h1 (h _ (hsub _ (by simp)) _ h1 _ _ _ h2) (ih fun f hf => hsub f (by simp [hf]))

theorem array_order (hp : ∀ path i v, Pre (rec path i v)) (hp' : ∀ path i v, Pre (rec' path i v)) {path path' : Path} {ins : Instr} {vs : List Val}
    (h : ∀ x ∈ vs, ∀ path path' b, rec path ins x [] = .ok b → rec' path' ins x [] = .ok b) {b : Bytes}
    (hr : arrayLoopV rec path ins 0 vs [] = .ok b) : arrayLoopV rec' path' ins 0 vs [] = .ok b := by
  obtain ⟨ts, h1, h2, rfl⟩ := (arrayV_ok hp path ins vs 0 [] b).mp hr
  exact (arrayV_ok hp' path' ins vs 0 [] _).mpr ⟨ts, h1, fun j v t hv ht => h v (List.mem_of_getElem? hv) _ _ _ (h2 j v t hv ht), rfl⟩

theorem execV_order (G : GoTypes W.E pt) {ord : Path → Nat → List Nat} (ho : OrderOk W.order) (ho' : OrderOk ord) (hsort : SortOk W.sort)
    (hp : ∀ path i v, Pre (rec path i v)) (hp' : ∀ path i v, Pre (rec' path i v)) (hM : PathFree M) (hu : bmHas o.flags .unsortedMap = false)
    {n : Nat} (hrec : rec = runV W M o n) {ca : Bool} {i : Instr} (hty : TypedI W.E t ca i) (hv : HasType W.E t v) (ha : KeysApart W M o t v)
    (h : PartsOk W.E t v rec rec') (path path' : Path) (b : Bytes) (hr : execV W M o rec path i v [] = .ok b) :
    execV { W with order := ord } M o rec' path' i v [] = .ok b := by
  rcases hty with hty | ⟨j, rfl, hj⟩
  · cases hty with
    | @goType _ _ s hs =>
      cases s with
      | syncMap =>
        obtain ⟨kvs, rfl, h1, h2⟩ := has_smap G hs hv
        simp only [execV, encodeSpecialV] at hr ⊢
        have hperm : (W.visit path kvs).Perm (World.visit { W with order := ord } path' kvs) :=
          (visit_perm ho path kvs).trans (visit_perm (W := { W with order := ord }) ho' path' kvs).symm
        refine entries_order (fun n a => pre_syncMapKeyV hp _ _) (fun n a => pre_appendJSONV hp _ _) (fun n a => pre_syncMapKeyV hp' _ _)
          (fun n a => pre_appendJSONV hp' _ _) (fun _ _ => rfl) hsort hperm hu ?_ ?_ ?_ hr
        · intro a ha n n' x hx
          have ha := (visit_perm ho path kvs).mem_iff.mp ha
          rcases inIface_cases (h1 a ha) with he | ⟨d, y, he, hy⟩
          · rw [he] at hx; simp [appendSyncMapKeyV] at hx
          · have hin := h1 a ha
            have hw : ∀ d y, a.1 = .iface d y → Within W.E t (.smap kvs) d y := fun d y hy => .step .refl (.skey ha hy)
            rw [he] at hx hin hw ⊢
            simp only [appendSyncMapKeyV] at hx ⊢
            split at hx
            · cases hx
            · next hq =>
              rw [if_neg hq]
              split at hx
              · next hst => rw [if_pos hst]; exact hx
              · next hst =>
                rw [if_neg hst]
                have key := appendJSONV_order (ord := ord) h hin hw ((2 * n) :: path) ((2 * n') :: path')
                cases hqq : (!isStringK (W.E d).kind && !(W.E d).meths.text) with
                | true =>
                  simp only [hqq, if_true] at hx ⊢
                  exact quote_order (pre_appendJSONV hp _ _) (pre_appendJSONV hp' _ _) key hx
                | false =>
                  simp only [hqq, Bool.false_eq_true, if_false] at hx ⊢
                  cases hz : appendJSONV W rec ((2 * n) :: path) (.iface d y) [] with
                  | ok z => rw [key z hz]; rw [hz] at hx; exact hx
                  | _ => rw [hz] at hx; cases hx
        · intro a ha n n' x hx
          have ha := (visit_perm ho path kvs).mem_iff.mp ha
          exact appendJSONV_order h (h2 a ha) (fun d y hy => .step .refl (.selem ha hy)) _ _ _ hx
        · subst hrec
          have := ha.smap t kvs .refl
          refine (List.Perm.pairwise_iff ?_ (visit_perm ho path kvs)).mpr (this.imp ?_)
          · intro x y hxy n m a b c d h1 h2 h3 h4 e
            have := hxy _ _ _ _ _ _ h2 h1 h4 h3 e.symm
            exact ⟨this.1.symm, this.2.symm⟩
          · intro a b hab n' m x y z z' h1 h2 h3 h4; exact hab n n _ _ _ _ x y z z' h1 h2 h3 h4
      | duration =>
        simp only [execV] at hr ⊢
        cases v with
        | int x => cases x <;> exact hr
        | _ => exact hr
      | _ => simp only [execV] at hr ⊢; cases v <;> exact hr
    | @marsh _ _ m hm hs =>
      have : M path = M path' := by funext m c t v d; exact hM _ _ _ _ _ _ _
      simp only [execV, encodeMarshalerV, this] at hr ⊢
      exact hr
    | @marshP _ _ m hn hm hc hk hs =>
      have : M path = M path' := by funext m c t v d; exact hM _ _ _ _ _ _ _
      simp only [execV, encodeMarshalerV, this] at hr ⊢
      exact hr
    | @quoted _ _ j hj =>
      simp only [execV, List.nil_append] at hr ⊢
      exact quote_order (hp _ _ _) (hp' _ _ _) (h (.inl hj) hv .refl path path') hr
    | @nilText _ _ j hpk hj =>
      cases v with
      | nil => exact hr
      | _ => exact h (.inl hj) hv .refl path path' b hr
    | @iface _ _ n hk hm =>
      rcases has_iface G hk hv with rfl | ⟨d, x, rfl, hx⟩
      · exact hr
      · simp only [execV] at hr ⊢
        exact appendJSONV_order h (.val hx) (fun d' y e => by cases e; exact .step .refl .iface) _ _ _ hr
    | struct hk hs =>
      have hst : IsStruct W.E t := by
        revert hk
        cases hkk : (W.E t).kind <;> simp [isStructK]
        exact ⟨_, hkk⟩
      simp only [execV] at hr ⊢
      split at hr
      · next h0 => rw [if_pos h0]; exact hr
      · next h0 =>
        rw [if_neg h0]
        cases hfl : structFieldsInstr W.E W.U W.grow W.sort W.tfuel t ca with
        | none => rw [hfl] at hr; cases hr
        | some fl =>
          rw [hfl] at hr
          simp only at hr ⊢
          obtain ⟨l, hl, _, hok⟩ := structFieldsInstr_ok hfl
          rw [structLoopV_G] at hr ⊢
          obtain ⟨ms, hms, rfl⟩ := (structG_ok o _ hp path fl 0 true [] b).mp hr
          refine (structG_ok o _ hp' path' fl 0 true [] _).mpr ⟨ms, emits_order (fun f hf => hf) ?_ hms, rfl⟩
          intro f hf x hx path path' b
          obtain ⟨-, ft, hft⟩ := hok f hf
          have hat := fieldAt_iff.mpr (fieldV_route hx)
          obtain ⟨h1, h2⟩ := fieldAt_type G hat hst hv hft.typ
          exact h (.inl hft.instr) h1 h2 path path' b
    | map hk hkm hki hvi =>
      rcases has_map G hk hv with rfl | ⟨kvs, rfl, h1, h2⟩
      · exact hr
      · simp only [execV] at hr ⊢
        split at hr
        · next h0 => rw [if_pos h0]; exact hr
        · next h0 =>
          rw [if_neg h0]
          have hperm : (W.visit path kvs).Perm (World.visit { W with order := ord } path' kvs) :=
            (visit_perm ho path kvs).trans (visit_perm (W := { W with order := ord }) ho' path' kvs).symm
          refine entries_order (fun n a => hp _ _ _) (fun n a => hp _ _ _) (fun n a => hp' _ _ _) (fun n a => hp' _ _ _) (fun _ _ => rfl) hsort hperm hu ?_ ?_ ?_ hr
          · intro a ha n n' x hx
            have ha := (visit_perm ho path kvs).mem_iff.mp ha
            exact h (.inl hki) (h1 a ha) (.step .refl (.key hk ha)) _ _ _ hx
          · intro a ha n n' x hx
            have ha := (visit_perm ho path kvs).mem_iff.mp ha
            exact h (.inl hvi) (h2 a ha) (.step .refl (.elem hk ha)) _ _ _ hx
          · subst hrec
            refine (List.Perm.pairwise_iff ?_ (visit_perm ho path kvs)).mpr ((ha.map t _ _ kvs .refl hk _ _ hkm (.inl hvi)).imp ?_)
            · intro x y hxy n m a b c d h1 h2 h3 h4 e
              have := hxy _ _ _ _ _ _ h2 h1 h4 h3 e.symm
              exact ⟨this.1.symm, this.2.symm⟩
            · intro a b hab n' m x y z z' h1 h2 h3 h4; exact hab n n _ _ _ _ x y z z' h1 h2 h3 h4
    | slice hk hi =>
      rcases has_slice G hk hv with rfl | ⟨vs, rfl, h1⟩
      · exact hr
      · simp only [execV, encodeArrayV, Bool.false_and, Bool.false_eq_true, if_false] at hr ⊢
        split at hr
        · next h0 => rw [if_pos h0]; exact hr
        · next h0 =>
          rw [if_neg h0]
          exact array_order hp hp' (fun x hx => h (.inl hi) (h1 x hx) (.step .refl (.slice hk hx))) hr
    | array hk hb hi =>
      obtain ⟨vs, rfl, -, h1⟩ := has_array G hk hv
      simp only [execV, encodeArrayV] at hr ⊢
      split at hr
      · next h0 => rw [if_pos h0]; exact hr
      · next h0 =>
        rw [if_neg h0]
        exact array_order hp hp' (fun x hx => h (.inl hi) (h1 x hx) (.step .refl (.array hk hx))) hr
    | ptr hk hi =>
      rcases has_ptr G hk hv with rfl | ⟨x, rfl, h1⟩
      · exact hr
      · exact h (.inl hi) h1 (.step .refl (.ptr hk)) path path' b hr
    | _ => exact hr
  · exact h (.inl hj) hv .refl path path' b hr

theorem keysApart_part {t' : TId} {v' : Val} (h : KeysApart W M o t v) (hp : Within W.E t v t' v') : KeysApart W M o t' v' where
  map t'' k e kvs hw := h.map t'' k e kvs (within_trans hp hw)
  smap t'' kvs hw := h.smap t'' kvs (within_trans hp hw)

/-- The order in which maps are visited makes no difference. -/
theorem runV_order (G : GoTypes W.E pt) {ord : Path → Nat → List Nat} (ho : OrderOk W.order) (ho' : OrderOk ord) (hsort : SortOk W.sort)
    (hl : FmtLong W.fmt) (hh : HonestAppend M) (hM : PathFree M) (hu : bmHas o.flags .unsortedMap = false) :
    ∀ (n : Nat) {t : TId} {ca : Bool} {i : Instr} {v : Val}, TypedI W.E t ca i → HasType W.E t v → KeysApart W M o t v → ∀ path path' b,
      runV W M o n path i v [] = .ok b → runV { W with order := ord } M o n path' i v [] = .ok b
  | 0, _, _, _, _, _, _, _, _, _, _, h => by cases h
  | n + 1, t, ca, i, v, hty, hv, ha, path, path', b, h =>
    execV_order G ho ho' hsort (pre_runV hl hh n) (pre_runV (W := { W with order := ord }) hl hh n) hM hu rfl hty hv ha
      (fun hty' hv' hw => runV_order G ho ho' hsort hl hh hM hu n hty' hv' (keysApart_part ha hw)) path path' b h

end Jettison.Proofs
