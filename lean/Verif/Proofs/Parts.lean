import Verif.Spec.Part
import Verif.Proofs.StructOut
import Verif.Proofs.Relate

/-! # Encoding a value encodes its parts -/

namespace Jettison.Proofs
open Jettison Jettison.Spec Jettison.Model

variable {E : Env} {m : Mem}

theorem zip_all {α β : Type} {es : List α} {kvs : List β} {Q : β → Prop} (hl : es.length = kvs.length)
    (h : ∀ (i : Nat) e kv, es[i]? = some e → kvs[i]? = some kv → Q kv) : ∀ kv, kv ∈ kvs → Q kv := by
  intro kv hkv
  obtain ⟨i, hi⟩ := List.getElem?_of_mem hkv
  have : i < es.length := by rw [hl]; exact (List.getElem?_eq_some_iff.mp hi).1
  exact h i _ _ (List.getElem?_eq_getElem this) hi

theorem list_all {β : Type} {vs : List β} {Q : β → Prop} (h : ∀ (i : Nat) v, vs[i]? = some v → Q v) : ∀ v, v ∈ vs → Q v := by
  intro v hv
  obtain ⟨i, hi⟩ := List.getElem?_of_mem hv
  exact h i _ hi

/-- Values in memory have their type. -/
theorem repr_hasType {t : TId} {p : Loc} {v : Val} (h : Repr E m t p v) : HasType E t v :=
  Jettison.Spec.Repr.rec (motive_1 := fun t _ v _ => HasType E t v) (motive_2 := fun _ v _ => InIface E v)
    (fun h _ => .bool h) (fun h _ => .int h) (fun h _ => .float h) (fun h _ => .str h) (fun h _ => .time h)
    (fun h _ hl _ _ ik iv => .smap h (zip_all hl ik) (zip_all hl iv))
    (fun h _ => .nilPtr h) (fun h _ _ _ ih => .ptr h ih) (fun h _ _ => .nilMap h)
    (fun h _ _ _ _ hl _ _ ik iv => .map h (zip_all hl ik) (zip_all hl iv))
    (fun h _ => .nilSlice h) (fun h _ _ _ ih => .slice h (list_all ih)) (fun h _ _ ih => .array h (list_all ih))
    (fun h hs _ hl _ ih => .struct h hs hl ih) (fun h _ _ ih => .iface h ih) (fun h _ _ _ ih => .iface h ih) (fun h _ => .opaque h)
    .nil (fun _ _ ih => .val ih) (fun _ _ ih => .val ih) h

theorem repr_inIface {x : Eface} {v : Val} (h : ReprE E m x v) : InIface E v := by
  cases h with
  | nil => exact .nil
  | direct _ h => exact .val (repr_hasType h)
  | indirect _ h => exact .val (repr_hasType h)

/-! ## The shape of values of a type -/

variable {pt : TId → TId} {t : TId} {v : Val}

theorem has_bool (G : GoTypes E pt) (hk : (E t).kind = .bool) (h : HasType E t v) : ∃ b, v = .bool b := by
  cases h with
  | bool => exact ⟨_, rfl⟩
  | time hs => obtain ⟨_, h, _⟩ := G.time _ hs; simp [hk] at h
  | smap hs => obtain ⟨_, h, _⟩ := G.syncMap _ hs; simp [hk] at h
  | _ => simp_all

theorem has_int {k : IntK} (G : GoTypes E pt) (hk : (E t).kind = .int k) (h : HasType E t v) : ∃ x, v = .int x ∧ x.kind = k := by
  cases h with
  | int hk' => rw [hk] at hk'; simp at hk'; exact ⟨_, rfl, hk'.symm⟩
  | time hs => obtain ⟨_, h, _⟩ := G.time _ hs; simp [hk] at h
  | smap hs => obtain ⟨_, h, _⟩ := G.syncMap _ hs; simp [hk] at h
  | _ => simp_all

theorem has_float {w : FWidth} (G : GoTypes E pt) (hk : (E t).kind = .float w) (h : HasType E t v) : ∃ x, v = .float w x := by
  cases h with
  | float hk' => rw [hk] at hk'; simp at hk'; subst hk'; exact ⟨_, rfl⟩
  | time hs => obtain ⟨_, h, _⟩ := G.time _ hs; simp [hk] at h
  | smap hs => obtain ⟨_, h, _⟩ := G.syncMap _ hs; simp [hk] at h
  | _ => simp_all

theorem has_str (G : GoTypes E pt) (hk : (E t).kind = .string) (h : HasType E t v) : ∃ x, v = .str x := by
  cases h with
  | str hk' => exact ⟨_, rfl⟩
  | time hs => obtain ⟨_, h, _⟩ := G.time _ hs; simp [hk] at h
  | smap hs => obtain ⟨_, h, _⟩ := G.syncMap _ hs; simp [hk] at h
  | _ => simp_all

theorem has_ptr {e : TId} (G : GoTypes E pt) (hk : (E t).kind = .ptr e) (h : HasType E t v) :
    v = .nil ∨ ∃ x, v = .ptr x ∧ HasType E e x := by
  cases h with
  | nilPtr => exact .inl rfl
  | ptr hk' h => rw [hk] at hk'; simp at hk'; subst hk'; exact .inr ⟨_, rfl, h⟩
  | time hs => obtain ⟨_, h, _⟩ := G.time _ hs; simp [hk] at h
  | smap hs => obtain ⟨_, h, _⟩ := G.syncMap _ hs; simp [hk] at h
  | _ => simp_all

theorem has_map {k e : TId} (G : GoTypes E pt) (hk : (E t).kind = .map k e) (h : HasType E t v) :
    v = .nil ∨ ∃ kvs, v = .map kvs ∧ (∀ kv ∈ kvs, HasType E k kv.1) ∧ ∀ kv ∈ kvs, HasType E e kv.2 := by
  cases h with
  | nilMap => exact .inl rfl
  | map hk' h1 h2 => rw [hk] at hk'; simp at hk'; obtain ⟨rfl, rfl⟩ := hk'; exact .inr ⟨_, rfl, h1, h2⟩
  | time hs => obtain ⟨_, h, _⟩ := G.time _ hs; simp [hk] at h
  | smap hs => obtain ⟨_, h, _⟩ := G.syncMap _ hs; simp [hk] at h
  | _ => simp_all

theorem has_slice {e : TId} (G : GoTypes E pt) (hk : (E t).kind = .slice e) (h : HasType E t v) :
    v = .nil ∨ ∃ vs, v = .slice vs ∧ ∀ x ∈ vs, HasType E e x := by
  cases h with
  | nilSlice => exact .inl rfl
  | slice hk' h1 => rw [hk] at hk'; simp at hk'; subst hk'; exact .inr ⟨_, rfl, h1⟩
  | time hs => obtain ⟨_, h, _⟩ := G.time _ hs; simp [hk] at h
  | smap hs => obtain ⟨_, h, _⟩ := G.syncMap _ hs; simp [hk] at h
  | _ => simp_all

theorem has_array {n : Nat} {e : TId} (G : GoTypes E pt) (hk : (E t).kind = .array n e) (h : HasType E t v) :
    ∃ vs, v = .array vs ∧ vs.length = n ∧ ∀ x ∈ vs, HasType E e x := by
  cases h with
  | array hk' h1 => rw [hk] at hk'; simp at hk'; obtain ⟨rfl, rfl⟩ := hk'; exact ⟨_, rfl, rfl, h1⟩
  | time hs => obtain ⟨_, h, _⟩ := G.time _ hs; simp [hk] at h
  | smap hs => obtain ⟨_, h, _⟩ := G.syncMap _ hs; simp [hk] at h
  | _ => simp_all

theorem has_struct {fs : List FieldDef} (hk : (E t).kind = .struct fs) (hs : (E t).special = none) (h : HasType E t v) :
    ∃ vs, v = .struct vs ∧ fs.length = vs.length ∧
      ∀ (i : Nat) f x, fs[i]? = some f → vs[i]? = some x → HasType E f.typ x := by
  cases h with
  | struct hk' _ h1 h2 => rw [hk] at hk'; simp at hk'; subst hk'; exact ⟨_, rfl, h1, h2⟩
  | _ => simp_all

theorem has_iface {n : Nat} (G : GoTypes E pt) (hk : (E t).kind = .iface n) (h : HasType E t v) :
    v = .nil ∨ ∃ d x, v = .iface d x ∧ HasType E d x := by
  cases h with
  | iface _ h =>
    cases h with
    | nil => exact .inl rfl
    | val h => exact .inr ⟨_, _, rfl, h⟩
  | time hs => obtain ⟨_, h, _⟩ := G.time _ hs; simp [hk] at h
  | smap hs => obtain ⟨_, h, _⟩ := G.syncMap _ hs; simp [hk] at h
  | _ => simp_all

theorem has_time (G : GoTypes E pt) (hs : (E t).special = some .time) (h : HasType E t v) : ∃ x, v = .time x := by
  obtain ⟨fs, hk, _⟩ := G.time _ hs
  cases h with
  | time => exact ⟨_, rfl⟩
  | _ => simp_all

theorem has_smap (G : GoTypes E pt) (hs : (E t).special = some .syncMap) (h : HasType E t v) :
    ∃ kvs, v = .smap kvs ∧ (∀ kv ∈ kvs, InIface E kv.1) ∧ ∀ kv ∈ kvs, InIface E kv.2 := by
  obtain ⟨fs, hk, _⟩ := G.syncMap _ hs
  cases h with
  | smap _ h1 h2 => exact ⟨_, rfl, h1, h2⟩
  | _ => simp_all

theorem inIface_cases {v : Val} (h : InIface E v) : v = .nil ∨ ∃ d x, v = .iface d x ∧ HasType E d x := by
  cases h with
  | nil => exact .inl rfl
  | val h => exact .inr ⟨_, _, rfl, h⟩

theorem within_trans {t t' t'' : TId} {v v' v'' : Val} (h : Within E t v t' v') (h' : Within E t' v' t'' v'') : Within E t v t'' v'' := by
  induction h' with
  | refl => exact h
  | step _ hp ih => exact .step ih hp

/-- The field at an index path has the type at that path, and is a part. -/
theorem fieldAt_type (G : GoTypes E pt) {v x : Val} {path : List Nat} (hf : FieldAt v path x) : ∀ {t ft : TId}, IsStruct E t →
    HasType E t v → typeByIndex E t path = some ft → HasType E ft x ∧ Within E t v ft x := by
  induction hf with
  | @last vs i x hx =>
    rintro t ft ⟨fs, hk⟩ hv ht
    simp only [HasFields] at hk
    have hs : (E t).special = none := by cases hv <;> simp_all
    obtain ⟨vs', he, hl, hfs⟩ := has_struct hk hs hv
    simp only [Val.struct.injEq] at he; subst he
    simp only [typeByIndex, derefOnce, hk, fieldsOfK] at ht
    cases hf : fs[i]? with
    | none => simp [hf] at ht
    | some sf =>
      simp only [hf, Option.some.injEq] at ht
      subst ht
      exact ⟨hfs i sf x hf hx, .step .refl (.field hk hf hx)⟩
  | @embed vs i j is ws x hx hf ih =>
    rintro t ft ⟨fs, hk⟩ hv ht
    simp only [HasFields] at hk
    have hs : (E t).special = none := by cases hv <;> simp_all
    obtain ⟨vs', he, hl, hfs⟩ := has_struct hk hs hv
    simp only [Val.struct.injEq] at he; subst he
    rw [typeByIndex] at ht
    simp only [derefOnce, hk, fieldsOfK] at ht
    cases hfi : fs[i]? with
    | none => simp [hfi] at ht
    | some sf =>
      simp only [hfi] at ht
      have h1 := hfs i sf _ hfi hx
      have hst : IsStruct E sf.typ := by
        cases h1 with
        | struct h => exact ⟨_, h⟩
        | iface _ h => cases h
      obtain ⟨h2, h3⟩ := ih hst h1 ht
      exact ⟨h2, within_trans (.step .refl (.field hk hfi hx)) h3⟩
  | @deref vs i j is y x hx hf ih =>
    rintro t ft ⟨fs, hk⟩ hv ht
    simp only [HasFields] at hk
    have hs : (E t).special = none := by cases hv <;> simp_all
    obtain ⟨vs', he, hl, hfs⟩ := has_struct hk hs hv
    simp only [Val.struct.injEq] at he; subst he
    rw [typeByIndex] at ht
    simp only [derefOnce, hk, fieldsOfK] at ht
    cases hfi : fs[i]? with
    | none => simp [hfi] at ht
    | some sf =>
      simp only [hfi] at ht
      have h1 := hfs i sf _ hfi hx
      obtain ⟨e, hpe, hy⟩ : ∃ e, (E sf.typ).kind = .ptr e ∧ HasType E e y := by
        cases h1 with
        | ptr h hy => exact ⟨_, h, hy⟩
        | iface _ h => cases h
      have hst : IsStruct E e := by
        have hv' : ∃ ws, y = .struct ws := by cases hf <;> exact ⟨_, rfl⟩
        obtain ⟨ws, rfl⟩ := hv'
        cases hy with
        | struct h => exact ⟨_, h⟩
        | iface _ h => cases h
      have ht' : typeByIndex E e (j :: is) = some ft := by
        rw [typeByIndex] at ht ⊢
        rw [show derefOnce E sf.typ = e by simp [derefOnce, hpe]] at ht
        obtain ⟨fs', hk'⟩ := hst
        simp only [HasFields] at hk'
        rwa [show derefOnce E e = e by simp [derefOnce, hk']]
      obtain ⟨h2, h3⟩ := ih hst hy ht'
      exact ⟨h2, within_trans (.step (.step .refl (.field hk hfi hx)) (.ptr hpe)) h3⟩

/-! ## Recursive calls on parts -/

/-- The instruction of a type, possibly behind the wrapper for direct types. -/
def TypedI (E : Env) (t : TId) (ca : Bool) (i : Instr) : Prop := Typed E t ca i ∨ ∃ j, i = .inline j ∧ Typed E t ca j

theorem instrFor_typedI {n : Nat} {i : Instr} (h : instrFor E n t = some i) : TypedI E t (isPtrK (E t).kind) i := by
  obtain ⟨j, hj, rfl⟩ := instrFor_cases h
  split
  · exact .inr ⟨j, rfl, hj⟩
  · exact .inl hj

/-- The calls agree on parts of the value. -/
def PartsAgree (E : Env) (t : TId) (v : Val) (rec rec' : RecV) : Prop :=
  ∀ {t' ca i v'}, TypedI E t' ca i → HasType E t' v' → Within E t v t' v' → ∀ path dst, rec path i v' dst = rec' path i v' dst

variable {W : World} {M : MethV} {o : EncOpts} {rec rec' : RecV}

theorem appendJSONV_parts (h : PartsAgree W.E t v rec rec') {x : Val} (hx : InIface W.E x)
    (hw : ∀ d y, x = .iface d y → Within W.E t v d y) (path : Path) (dst : Bytes) :
    appendJSONV W rec path x dst = appendJSONV W rec' path x dst := by
  rcases inIface_cases hx with rfl | ⟨d, y, rfl, hy⟩
  · rfl
  · simp only [appendJSONV]
    cases hi : instrFor W.E W.tfuel d with
    | none => rfl
    | some i => exact h (instrFor_typedI hi) hy (hw d y rfl) path dst

theorem syncKeyV_parts (h : PartsAgree W.E t v rec rec') {x : Val} (hx : InIface W.E x)
    (hw : ∀ d y, x = .iface d y → Within W.E t v d y) (path : Path) (dst : Bytes) :
    appendSyncMapKeyV W o rec path x dst = appendSyncMapKeyV W o rec' path x dst := by
  rcases inIface_cases hx with rfl | ⟨d, y, rfl, hy⟩
  · rfl
  · simp only [appendSyncMapKeyV, appendJSONV_parts h hx hw]

theorem entries_mem {α : Type} {kf vf kf' vf' : Nat → α → Bytes → Res} {es : List α} (path : Path)
    (hk : ∀ a ∈ es, ∀ n dst, kf n a dst = kf' n a dst) (hv : ∀ a ∈ es, ∀ n dst, vf n a dst = vf' n a dst) (dst : Bytes) :
    encodeEntries W o kf vf (W.visit path es) dst = encodeEntries W o kf' vf' (W.visit path es) dst :=
  encodeEntries_rel W o path rfl
    (fun i a b ha hb n dst => by rw [ha] at hb; cases hb; exact hk a (List.mem_of_getElem? ha) n dst)
    (fun i a b ha hb n dst => by rw [ha] at hb; cases hb; exact hv a (List.mem_of_getElem? ha) n dst) dst

theorem arrayV_parts {path : Path} {ins : Instr} : ∀ (vs : List Val) (i : Nat) (dst : Bytes),
    (∀ x ∈ vs, ∀ path dst, rec path ins x dst = rec' path ins x dst) →
    arrayLoopV rec path ins i vs dst = arrayLoopV rec' path ins i vs dst
  | [], _, _, _ => rfl
  | v :: vs, i, dst, h => by
    simp only [arrayLoopV, h v (by simp)]
    generalize rec' (i :: path) ins v _ = r
    cases r with
    | ok d => exact arrayV_parts vs _ _ (fun x hx => h x (by simp [hx]))
    | _ => rfl

theorem structV_parts {path : Path} : ∀ (fs : List FInstr) (i : Nat) (first : Bool) (dst : Bytes),
    (∀ f ∈ fs, ∀ x, fieldV o f v = some (some x) → ∀ path dst, rec path f.instr x dst = rec' path f.instr x dst) →
    structLoopV o rec path v i fs first dst = structLoopV o rec' path v i fs first dst
  | [], _, _, _, _ => rfl
  | f :: fs, i, first, dst, h => by
    simp only [structLoopV]
    have ih := fun i first dst => structV_parts (path := path) fs i first dst (fun f hf => h f (by simp [hf]))
    cases hf : fieldV o f v with
    | none => rfl
    | some y =>
      cases y with
      | none => exact ih _ _ _
      | some x =>
        simp only [h f (by simp) x hf]
        generalize rec' (i :: path) f.instr x _ = r
        cases r with
        | ok d => simp only [ih]
        | _ => rfl

theorem fieldV_route {f : FInstr} {x : Val} (h : fieldV o f v = some (some x)) : routeV v f.fld.index = some (some x) := by
  simp only [fieldV] at h
  split at h
  · simp at h
  · split at h
    · simp at h
    · simp at h
    · next y hy =>
      split at h
      · simp at h
      · simp at h
      · split at h
        · simp at h
        · simp at h
        · simp only [Option.some.injEq] at h; rw [← h]; exact hy

/-- An instruction only calls others on parts of its value. -/
theorem execV_parts (G : GoTypes W.E pt) {ca : Bool} {i : Instr} (hty : TypedI W.E t ca i) (hv : HasType W.E t v)
    (h : PartsAgree W.E t v rec rec') (path : Path) (dst : Bytes) :
    execV W M o rec path i v dst = execV W M o rec' path i v dst := by
  rcases hty with hty | ⟨j, rfl, hj⟩
  · cases hty with
    | @goType _ _ s hs =>
      cases s with
      | syncMap =>
        obtain ⟨kvs, rfl, h1, h2⟩ := has_smap G hs hv
        simp only [execV, encodeSpecialV]
        refine entries_mem path (fun a ha n dst => ?_) (fun a ha n dst => ?_) dst
        · exact syncKeyV_parts h (h1 a ha) (fun d y hy => .step .refl (.skey ha hy)) _ _
        · exact appendJSONV_parts h (h2 a ha) (fun d y hy => .step .refl (.selem ha hy)) _ _
      | _ => cases v <;> first | rfl | (rename_i x; cases x <;> rfl)
    | @quoted _ _ j hj =>
      simp only [execV, h (.inl hj) hv .refl]
    | @nilText _ _ j hp hj =>
      cases v <;> simp only [execV, h (.inl hj) hv .refl]
    | @iface _ _ n hk hm =>
      rcases has_iface G hk hv with rfl | ⟨d, x, rfl, hx⟩
      · rfl
      · simp only [execV]
        exact appendJSONV_parts h (.val hx) (fun d' y e => by cases e; exact .step .refl .iface) _ _
    | struct hk hs =>
      have hst : IsStruct W.E t := by
        revert hk
        cases hkk : (W.E t).kind <;> simp [isStructK]
        exact ⟨_, hkk⟩
      simp only [execV]
      split
      · rfl
      · cases hfl : structFieldsInstr W.E W.U W.grow W.sort W.tfuel t ca with
        | none => rfl
        | some fl =>
          obtain ⟨l, hl, _, hok⟩ := structFieldsInstr_ok hfl
          refine structV_parts fl 0 true dst (fun f hf x hx path dst => ?_)
          obtain ⟨-, ft, hft⟩ := hok f hf
          have hat := fieldAt_iff.mpr (fieldV_route hx)
          obtain ⟨h1, h2⟩ := fieldAt_type G hat hst hv hft.typ
          exact h (.inl hft.instr) h1 h2 path dst
    | map hk hkm hki hvi =>
      rcases has_map G hk hv with rfl | ⟨kvs, rfl, h1, h2⟩
      · rfl
      · simp only [execV]
        split
        · rfl
        · refine entries_mem path (fun a ha n dst => ?_) (fun a ha n dst => ?_) dst
          · exact h (.inl hki) (h1 a ha) (.step .refl (.key hk ha)) _ _
          · exact h (.inl hvi) (h2 a ha) (.step .refl (.elem hk ha)) _ _
    | slice hk hi =>
      rcases has_slice G hk hv with rfl | ⟨vs, rfl, h1⟩
      · rfl
      · simp only [execV, encodeArrayV]
        split
        · rfl
        · split
          · rfl
          · exact arrayV_parts vs 0 dst (fun x hx => h (.inl hi) (h1 x hx) (.step .refl (.slice hk hx)))
    | array hk hb hi =>
      obtain ⟨vs, rfl, -, h1⟩ := has_array G hk hv
      simp only [execV, encodeArrayV]
      split
      · rfl
      · exact arrayV_parts vs 0 dst (fun x hx => h (.inl hi) (h1 x hx) (.step .refl (.array hk hx)))
    | ptr hk hi =>
      rcases has_ptr G hk hv with rfl | ⟨x, rfl, h1⟩
      · rfl
      · exact h (.inl hi) h1 (.step .refl (.ptr hk)) path dst
    | _ => rfl
  · exact h (.inl hj) hv .refl path dst

/-- Two runs agree when their steps do, on a value and all its parts. -/
theorem runV_parts (G : GoTypes W.E pt) {M' : MethV} {o' : EncOpts} {Good : TId → Val → Prop}
    (hpart : ∀ t v t' v', Good t v → Part W.E t v t' v' → Good t' v')
    (hstep : ∀ t ca i v rec path dst, TypedI W.E t ca i → HasType W.E t v → Good t v →
      execV W M o rec path i v dst = execV W M' o' rec path i v dst) :
    ∀ (n : Nat) {t : TId} {ca : Bool} {i : Instr} {v : Val}, TypedI W.E t ca i → HasType W.E t v → Good t v → ∀ path dst,
      runV W M o n path i v dst = runV W M' o' n path i v dst
  | 0, _, _, _, _, _, _, _, _, _ => rfl
  | n + 1, t, ca, i, v, hty, hv, hg, path, dst => by
    have hw : ∀ {t' v'}, Within W.E t v t' v' → Good t' v' := by
      intro t' v' h
      induction h with
      | refl => exact hg
      | step _ hp ih => exact hpart _ _ _ _ ih hp
    show execV W M o (runV W M o n) path i v dst = execV W M' o' (runV W M' o' n) path i v dst
    rw [← hstep t ca i v (runV W M' o' n) path dst hty hv hg]
    exact execV_parts G hty hv (fun hty' hv' hw' => runV_parts G hpart hstep n hty' hv' (hw hw')) path dst

end Jettison.Proofs
