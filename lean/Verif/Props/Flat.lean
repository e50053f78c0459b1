import Verif.Spec.Flat
import Verif.Props.Mapped

/-!
# C84: nothing but the members shown is encoded of a struct
-/

namespace Jettison.Props
open Jettison Jettison.Spec Jettison.Model Jettison.Proofs

variable {W : World} {M : MethV} {o : EncOpts} {t : TId} {ca q : Bool} {v : Val} {b : Bytes}

theorem map_onto {α β : Type} {xs : List α} {ys : List β} (hn : xs.Nodup) (hl : xs.length = ys.length) : ∃ g : α → Option β, xs.map g = ys.map some := by
  classical
  induction xs generalizing ys with
  | nil => cases ys with
    | nil => exact ⟨fun _ => none, rfl⟩
    | cons => cases hl
  | cons x xs ih => cases ys with
    | nil => cases hl
    | cons y ys =>
      rw [List.nodup_cons] at hn
      obtain ⟨g, hg⟩ := ih hn.2 (Nat.succ.inj hl)
      refine ⟨fun a => if a = x then some y else g a, ?_⟩
      rw [List.map_cons, List.map_cons, if_pos rfl, ← hg]
      refine congrArg _ (List.map_congr_left fun a ha => if_neg fun e => ?_)
      subst e
      exact hn.1 ha

theorem sameMember_symm {v v' : Val} {m m' : MField} (h : SameMember v v' m m') : SameMember v' v m' m :=
  ⟨h.name.symm, h.typ.symm, h.quoted.symm, h.omitnil.symm, h.value.imp fun _ h => h.symm⟩

theorem sameMembers_symm {t' : TId} {v' : Val} (h : SameMembers W o t v t' v') : SameMembers W o t' v' t v := by
  obtain ⟨s, s', h1, h2, h3, h4⟩ := h
  exact ⟨s', s, h2, h1, h3.symm, fun i m m' hm hm' => sameMember_symm (h4 i m' m hm' hm)⟩

/-- What the rule for structs needs of corresponding members. -/
structure MemberLike (W : World) (M : MethV) (o : EncOpts) (ca : Bool) (v v' : Val) (m m' : MField) : Prop where
  name : m'.name = m.name
  quoted : (HasOpt m'.decl (b! "string") ∧ BasicOrPtr W.E m'.decl.typ) ↔ (HasOpt m.decl (b! "string") ∧ BasicOrPtr W.E m.decl.typ)
  dropped : ∀ c, NullDropped W.E m' c ↔ NullDropped W.E m c
  value : ∃ x x', FieldAt v m.path x ∧ FieldAt v' m'.path x' ∧
    ∀ q c, (q = true ↔ HasOpt m.decl (b! "string") ∧ BasicOrPtr W.E m.decl.typ) → (Writes W M o m.decl.typ ca q x c ↔ Writes W M o m'.decl.typ ca q x' c)

theorem memberLike_symm {v v' : Val} {m m' : MField} (h : MemberLike W M o ca v v' m m') : MemberLike W M o ca v' v m' m := by
  obtain ⟨h1, h2, h3, x, x', h4, h5, h6⟩ := h
  exact ⟨h1.symm, h2.symm, fun c => (h3 c).symm, x', x, h5, h4, fun q c hq => (h6 q c (hq.trans h2)).symm⟩

theorem like_writes {t' : TId} {v' : Val} (hp : PlainStruct W.E t ca) (hp' : PlainStruct W.E t' ca) {shown shown' : List MField}
    (hsh : ShownMembers W o t v shown) (hsh' : ShownMembers W o t' v' shown') (hl : shown'.length = shown.length)
    (hs : ∀ (i : Nat) m m', shown[i]? = some m → shown'[i]? = some m' → MemberLike W M o ca v v' m m')
    (hw : Writes W M o t ca false v b) : Writes W M o t' ca false v' b := by
  classical
  obtain ⟨l, tried, kept, q', x, c, key, lead, a1, a2, a3, a4, a5, a6, a7, a8, a9, a10, rfl⟩ := w_struct hp.2 hp.1 hw
  obtain ⟨l0, b1, b2, b3⟩ := hsh
  obtain ⟨l', c1, c2, c3⟩ := hsh'
  cases membersOf_unique a1 b1
  obtain rfl : shown = tried := sublist_unique (membersOf_nodup a1) b2 a2 fun m hm => (b3 m hm).trans (a3 m hm).symm
  have hn := (membersOf_nodup a1).sublist a2
  have hn' := (membersOf_nodup c1).sublist c2
  obtain ⟨g0, hg0⟩ := map_onto hn' hl
  have ⟨g, hg⟩ : ∃ g : MField → MField, shown'.map g = shown := by
    refine ⟨fun m => (g0 m).getD m, List.map_inj_right (f := some) (fun _ _ h => Option.some.inj h) |>.mp ?_⟩
    rw [← hg0, List.map_map]
    refine List.map_congr_left fun m hm => ?_
    have : g0 m ∈ shown.map some := hg0 ▸ List.mem_map_of_mem hm
    obtain ⟨y, -, hy⟩ := List.mem_map.mp this
    simp [← hy]
  have hmem : ∀ m ∈ shown', g m ∈ shown := fun m hm => hg ▸ List.mem_map_of_mem hm
  have same : ∀ m ∈ shown', MemberLike W M o ca v v' (g m) m := by
    intro m hm
    obtain ⟨i, hi⟩ := List.mem_iff_getElem?.mp hm
    exact hs i _ m (by rw [← hg, List.getElem?_map, hi]; rfl) hi
  have inj : ∀ a ∈ shown', ∀ d ∈ shown', g a = g d → a = d := by
    intro a ha d hd e
    obtain ⟨i, hi⟩ := List.mem_iff_getElem?.mp ha
    obtain ⟨j, hj⟩ := List.mem_iff_getElem?.mp hd
    have h1 : shown[i]? = some (g a) := by rw [← hg, List.getElem?_map, hi]; rfl
    have h2 : shown[j]? = some (g a) := by rw [← hg, List.getElem?_map, hj, e]; rfl
    have : i = j := (List.getElem?_inj (List.getElem?_eq_some_iff.mp h1).1 hn).mp (h1.trans h2.symm)
    subst this
    rw [hi] at hj
    exact Option.some.inj hj
  have hkept : kept = shown.filter (· ∈ kept) :=
    sublist_unique hn a7 List.filter_sublist fun m hm => by simp [hm]
  have hk : (shown'.filter fun m => g m ∈ kept).map g = kept := by
    rw [hkept]
    conv => rhs; rw [← hg]
    rw [List.filter_map]
    refine congrArg _ (List.filter_congr fun m hm => ?_)
    rw [← hkept]
    rfl
  have hkm : ∀ m, m ∈ shown'.filter (fun m => g m ∈ kept) ↔ m ∈ shown' ∧ g m ∈ kept := fun m => by simp
  have ⟨x', hx'⟩ : ∃ x' : MField → Val, ∀ m ∈ shown', FieldAt v' m.path (x' m) := by
    refine ⟨fun m => if h : ∃ y, FieldAt v' m.path y then h.choose else .nil, fun m hm => ?_⟩
    obtain ⟨_, y, -, h, -⟩ := (same m hm).value
    have : ∃ y, FieldAt v' m.path y := ⟨y, h⟩
    simp only [dif_pos this]
    exact this.choose_spec
  have := Writes.struct (M := M) (o := o) (W := W) (t := t') (ca := ca) (v := v') (l := l') (tried := shown')
    (kept := shown'.filter fun m => g m ∈ kept) (q' := q' ∘ g) (x := x') (b := c ∘ g) (key := key ∘ g) (c := lead) hp'.2 hp'.1 c1 c2 c3 hx'
    (fun m hm => by
      rw [(same m hm).quoted]
      exact a5 _ (hmem m hm))
    (fun m hm => by
      obtain ⟨y, y', h1, h2, h3⟩ := (same m hm).value
      cases fieldAt_unique h1 (a4 _ (hmem m hm))
      cases fieldAt_unique h2 (hx' m hm)
      exact (h3 _ _ (a5 _ (hmem m hm))).mp (a6 _ (hmem m hm))) List.filter_sublist
    (fun m hm => by
      rw [hkm]
      exact (and_iff_right hm).trans ((a8 _ (hmem m hm)).trans (not_congr ((same m hm).dropped _).symm)))
    (fun m hm => by
      rw [hkm] at hm
      rw [(same m hm.1).name]
      exact a9 _ hm.2)
    (by
      have e1 : shown.head? = shown'.head?.map g := by rw [← hg, List.head?_map]
      have e2 : kept.head? = (shown'.filter fun m => g m ∈ kept).head?.map g := by rw [← List.head?_map, hk]
      have e3 : shown.head? = kept.head? ↔ shown'.head? = (shown'.filter fun m => g m ∈ kept).head? := by
        rw [e1, e2]
        refine ⟨fun h => ?_, fun h => by rw [h]⟩
        cases h1 : shown'.head? with
        | none =>
          rw [List.head?_eq_none_iff] at h1
          simp [h1]
        | some a =>
          rw [h1] at h
          cases h2 : (shown'.filter fun m => g m ∈ kept).head? with
          | none => rw [h2] at h; cases h
          | some d =>
            rw [h2] at h
            exact congrArg some (inj a (List.mem_of_mem_head? h1) d (((hkm d).mp (List.mem_of_mem_head? h2)).1) (Option.some.inj h))
      have e4 : kept = [] ↔ (shown'.filter fun m => g m ∈ kept) = [] := by
        conv => lhs; rw [← hk]
        exact List.map_eq_nil_iff
      cases a10 with
      | none h => exact .none (h.imp e4.mp e3.mp)
      | comma h1 h2 => exact .comma (mt e4.mpr h1) (mt e3.mpr h2))
  have e : kept.map (fun m => b! "\"" ++ key m ++ b! "\":" ++ c m) =
      (shown'.filter fun m => g m ∈ kept).map (fun m => b! "\"" ++ (key ∘ g) m ++ b! "\":" ++ (c ∘ g) m) := by
    conv => lhs; rw [← hk]
    rw [List.map_map]
    rfl
  rw [e]
  exact this

theorem same_like {v v' : Val} {m m' : MField} (h : SameMember v v' m m') : MemberLike W M o ca v v' m m' := by
  obtain ⟨x, k1, k2⟩ := h.value
  refine ⟨h.name, by rw [h.quoted, h.typ], fun c => ?_, x, x, k1, k2, fun q c _ => by rw [h.typ]⟩
  unfold NullDropped
  rw [h.omitnil, h.typ]

theorem flat_writes {t' : TId} {v' : Val} (hp : PlainStruct W.E t ca) (hp' : PlainStruct W.E t' ca) (h : SameMembers W o t v t' v')
    (hw : Writes W M o t ca false v b) : Writes W M o t' ca false v' b := by
  obtain ⟨shown, shown', h1, h2, h3, h4⟩ := h
  exact like_writes hp hp' h1 h2 h3 (fun i m m' hm hm' => same_like (h4 i m m' hm hm')) hw

/-- C84: structs that show the same members have the same texts. -/
theorem C84_text {t' : TId} {v' : Val} (hp : PlainStruct W.E t ca) (hp' : PlainStruct W.E t' ca) (h : SameMembers W o t v t' v') :
    Writes W M o t ca false v b ↔ Writes W M o t' ca false v' b :=
  ⟨flat_writes hp hp' h, flat_writes hp' hp (sameMembers_symm h)⟩

/-- C84: calls for the one and the other both succeed or both fail, and return the same. -/
theorem C84_calls {H : Heap} (D : FaultReady W H M) (DW : WriteReady W H M) (hP : PathFree M) {t' : TId} {v' : Val}
    (hp : PlainStruct W.E t false) (hp' : PlainStruct W.E t' false) {opts : List (Option Opt)} (ho : prepare opts = .ok o)
    (hs : SameMembers W o t v t' v') {w w' : Addr}
    (hx : ReprE W.E H.mem (some (t, w)) (.iface t v)) (hx' : ReprE W.E H.mem (some (t', w')) (.iface t' v'))
    (hf : TimesFine W t v) (hf' : TimesFine W t' v') {n n' : Nat} (hn : marshalOpts W H n (some (t, w)) opts ≠ .nofuel)
    (hn' : marshalOpts W H n' (some (t', w')) opts ≠ .nofuel) (dst : Bytes) :
    ((∃ b, marshalOpts W H n (some (t, w)) opts = .ret (some b) none) ↔ ∃ b, marshalOpts W H n' (some (t', w')) opts = .ret (some b) none) ∧
    (bmHas o.flags .unsortedMap = false → KeysTold W M o t' v' → ∀ b, marshalOpts W H n (some (t, w)) opts = .ret (some b) none →
      marshalOpts W H n' (some (t', w')) opts = .ret (some b) none ∧ appendOpts W H n' dst (some (t', w')) opts = .ret (some (dst ++ b)) none) := by
  have hq : ∀ {u}, PlainStruct W.E u false → isPtrK (W.E u).kind = false := by
    rintro u ⟨⟨fs, hk⟩, -⟩
    unfold HasFields at hk
    rw [hk]; rfl
  have e : ∀ b, Writes W M o t (isPtrK (W.E t).kind) false v b ↔ Writes W M o t' (isPtrK (W.E t').kind) false v' b := fun b => by
    rw [hq hp, hq hp']
    exact C84_text hp hp' hs
  have key : ∀ b, marshalOpts W H n (some (t, w)) opts = .ret (some b) none → Writes W M o t' (isPtrK (W.E t').kind) false v' b := fun b h =>
    (e b).mp ((C56_bytes DW hx hf ho).1 b h)
  refine ⟨⟨fun ⟨b, h⟩ => ?_, fun ⟨b, h⟩ => ?_⟩, fun hu hd b h => (C56_complete D DW hP hx' hf' ho (key b h) n' dst hn').2 hu hd⟩
  · obtain ⟨c, hc, -⟩ := (C56_complete D DW hP hx' hf' ho (key b h) n' dst hn').1
    exact ⟨c, hc⟩
  · obtain ⟨c, hc, -⟩ := (C56_complete D DW hP hx hf ho ((e b).mpr ((C56_bytes DW hx' hf' ho).1 b h)) n [] hn).1
    exact ⟨c, hc⟩

end Jettison.Props
