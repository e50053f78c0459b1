import Verif.Proofs.Writes
import Verif.Props.Document

/-!
# The bytes that are written (C56)

A call that succeeds writes what `Writes` says, byte for byte: for every option, also those that
leave the text as it is, and also where the text is not what it should be (the findings).
-/

namespace Jettison.Props
open Jettison Jettison.Spec Jettison.Model Jettison.Proofs

variable {W : World} {H : Heap} {M : MethV} {o : EncOpts} {t : TId} {ca q : Bool} {i : Instr} {p : Loc} {v : Val}

/-- The assumptions about the program and the standard library. -/
structure WriteReady (W : World) (H : Heap) (M : MethV) : Prop where
  ready : Ready W H M
  fmt : FormatContract W.fmt
  honest : HonestAppend H.meth
  honestV : HonestAppend M
  order : OrderOk W.order
  valid : ValidContract W.jsonValid

/-- The claim for depth `n`. -/
def WritesUpto (W : World) (H : Heap) (M : MethV) (o : EncOpts) (n : Nat) : Prop :=
  ∀ t ca q i p v path b, Stands W H t ca q i p v → TimesFine W t v → (q = true → BasicOrPtr W.E t) →
    run W H o n path i p [] = .ok b → Writes W M o t ca q v b

theorem timesFine_part (h : TimesFine W t v) {t' : TId} {v' : Val} (hp : Part W.E t v t' v') : TimesFine W t' v' :=
  fun t'' x hw => h t'' x (within_trans (.step .refl hp) hw)

theorem meth_text (hv : ValidContract W.jsonValid) {m : MethKind} {u rt : TId} {x : Val} {path : Path} {b : Bytes}
    (h : callMeth W o m u (fun c d => M path m c rt x d) [] = .ok b) : MethText M o rt x m b := by
  cases m with
  | appendCtx =>
    simp only [callMeth] at h
    cases hc : M path .appendCtx o.ctx rt x [] with
    | ok d => rw [hc] at h; cases h; exact .ctx hc
    | _ => rw [hc] at h; cases h
  | append =>
    simp only [callMeth] at h
    cases hc : M path .append none rt x [] with
    | ok d => rw [hc] at h; cases h; exact .app hc
    | _ => rw [hc] at h; cases h
  | json =>
    simp only [callMeth] at h
    cases hc : M path .json none rt x [] with
    | ok d =>
      rw [hc] at h
      simp only [relayJSON] at h
      split at h
      · next hn =>
        cases h
        exact .json hc (fun h => by rw [hn] at h; cases h) (.verbatim hn)
      · next hn =>
        split at h
        · cases h
        · next hj =>
          obtain ⟨r, h1, h2⟩ := appendCompactJSON_squeezed (!bmHas o.flags .noHTMLEscaping) d
          rw [h2] at h
          simp only [List.nil_append, Res.ok.injEq] at h
          subst h
          exact .json hc (fun _ => (hv d).mp (by simpa using hj)) (.compact (by simpa using hn) h1)
    | _ => rw [hc] at h; cases h
  | text =>
    simp only [callMeth] at h
    cases hc : M path .text none rt x [] with
    | ok d => rw [hc] at h; cases h; exact .text hc
    | _ => rw [hc] at h; cases h

theorem wr_meth (D : WriteReady W H M) (S : Stands W H t ca q i p v) (hs : (W.E t).special = none) {m : MethKind} (hp : Picks W.E t ca m)
    {n : Nat} {path : Path} {b : Bytes} (h : run W H o (n + 1) path i p [] = .ok b) : Writes W M o t ca q v b := by
  have key : ∀ rt x u, Receives W.E W.ptrTo t m v rt x u → Writes W M o t ca q v b := by
    intro rt x u hr
    rw [meth_call D.ready S hs hp hr] at h
    exact .meth hs hp hr (meth_text D.valid h)
  have hnil : MethSet.Has (W.E t).meths m → IsPtr W.E t ∨ IsIface W.E t → v = .nil → Writes W M o t ca q v b := by
    intro hh hpi hv
    subst hv
    obtain ⟨k, hm⟩ := S.made
    have hi := picks_made hs hp hm
    rw [stands_runV D.ready S] at h
    subst hi
    have hb := (hasB_iff _ _).mp hh
    have hc : (isPtrK (W.E t).kind || (ifaceK (W.E t).kind).isSome) = true := by
      rcases hpi with h | h
      · rw [(isPtr_iff _ _).mp h]; rfl
      · obtain ⟨n, hn⟩ := ifaceK_some h; rw [hn]; simp
    simp only [runV, execV, encodeMarshalerV, hb, Bool.not_true, Bool.not_false, Bool.true_and, hc, if_true, List.nil_append, Res.ok.injEq] at h
    subst h
    exact .methNil hs hp hh hpi
  by_cases hh : MethSet.Has (W.E t).meths m
  · by_cases hif : IsIface W.E t
    · obtain ⟨k, hk⟩ := hif
      obtain ⟨x, -, hx⟩ := repr_iface D.ready.types hk S.holds
      cases hx with
      | nil => exact hnil hh (.inr ⟨k, hk⟩) rfl
      | direct => exact key _ _ _ (.dyn hh ⟨k, hk⟩)
      | indirect => exact key _ _ _ (.dyn hh ⟨k, hk⟩)
    · by_cases hpt : IsPtr W.E t
      · obtain ⟨e, he⟩ := hpt
        rcases repr_ptr D.ready.types he S.holds with ⟨hv, -⟩ | ⟨a, x, hv, -⟩
        · exact hnil hh (.inl ⟨e, he⟩) hv
        · exact key _ _ _ (.own hh hif fun _ => by simp [hv])
      · exact key _ _ _ (.own hh hif fun h => absurd h hpt)
  · rcases hp.1 with h' | ⟨-, -, h'⟩
    · exact absurd h' hh
    · exact key _ _ _ (.addr hh h')

theorem wr_basic (D : WriteReady W H M) (S : Stands W H t ca false i p v) (hb : ByKind W.E t ca) (hk : isBasicK (W.E t).kind = true)
    {n : Nat} {path : Path} {b : Bytes} (h : run W H o (n + 1) path i p [] = .ok b) : Writes W M o t ca false v b := by
  obtain ⟨k, hm⟩ := S.made
  have hi := byKind_basic hb hk hm
  rw [stands_runV D.ready S] at h
  have hkk : (W.E t).kind = .bool ∨ (∃ k, (W.E t).kind = .int k) ∨ (∃ w, (W.E t).kind = .float w) ∨ (W.E t).kind = .string := by
    revert hk
    cases (W.E t).kind <;> simp [isBasicK, isInteger]
  rcases hkk with hk | ⟨k, hk⟩ | ⟨w, hk⟩ | hk
  · obtain ⟨x, rfl, -⟩ := repr_bool D.ready.types hk S.holds
    rw [hk] at hi; simp only [newBasicTypeInstr, Bool.false_eq_true, if_false, Option.some.injEq] at hi; subst hi
    simp only [runV, execV, Res.ok.injEq] at h
    subst h
    cases x with
    | true => exact .yes hb hk
    | false => exact .no hb hk
  · obtain ⟨x, rfl, -⟩ := repr_int D.ready.types hk S.holds
    rw [hk] at hi; simp only [newBasicTypeInstr, Bool.false_eq_true, if_false, Option.some.injEq] at hi; subst hi
    obtain ⟨out, h1, h2⟩ := C08_integer_literal x []
    simp only [runV, execV, h1, Res.ok.injEq, List.nil_append] at h
    subst h
    exact .int hb hk h2
  · obtain ⟨x, rfl, -⟩ := repr_float D.ready.types hk S.holds
    rw [hk] at hi; simp only [newBasicTypeInstr, Bool.false_eq_true, if_false, Option.some.injEq] at hi; subst hi
    simp only [runV, execV] at h
    cases hf : appendFloat W.fmt [] w x with
    | error e => rw [hf] at h; cases h
    | ok b' =>
      rw [hf] at h; cases h
      exact .float hb hk (appendFloat_text hf)
  · obtain ⟨x, rfl, -⟩ := repr_str D.ready.types hk S.holds
    rw [hk] at hi; simp only [newBasicTypeInstr, Bool.false_eq_true, if_false, Option.some.injEq] at hi; subst hi
    obtain ⟨r, h1, h2⟩ := encodeString_spelled o x
    simp only [runV, execV, h2, Res.ok.injEq, List.nil_append] at h
    subst h
    exact .str hb hk h1

theorem wr_quoted (D : WriteReady W H M) (S : Stands W H t ca true i p v) (hb : ByKind W.E t ca) (hk : isBasicK (W.E t).kind = true)
    {n : Nat} {path : Path} {b : Bytes} (h : run W H o (n + 1) path i p [] = .ok b) : Writes W M o t ca true v b := by
  have hkk : ((W.E t).kind = .bool ∨ (∃ k, (W.E t).kind = .int k) ∨ (∃ w, (W.E t).kind = .float w)) ∨ (W.E t).kind = .string := by
    revert hk
    cases (W.E t).kind <;> simp [isBasicK, isInteger]
  rcases hkk with hk' | hk'
  · obtain ⟨j, S', hr⟩ := C38_scalar (o := o) D.ready D.fmt S hb hk'
    have h2 : run W H o (n + 2) path i p [] = .ok b := (run_mono (Nat.le_succ _) (by rw [h]; simp)).trans h
    obtain ⟨text, h3, h4, -⟩ := (hr n path [] b).mp h2
    have h5 := wr_basic D S' hb hk h3
    have hns : (W.E t).kind ≠ .string := by
      rcases hk' with h | ⟨_, h⟩ | ⟨_, h⟩ <;> rw [h] <;> simp
    have : b = b! "\"" ++ text ++ b! "\"" := by rw [h4]; simp [strToken]
    rw [this]
    exact .quoted hb hk hns h5
  · obtain ⟨s, rfl, -⟩ := repr_str D.ready.types hk' S.holds
    obtain ⟨k, hm⟩ := S.made
    have hi := byKind_basic hb hk hm
    rw [hk'] at hi; simp only [newBasicTypeInstr, if_true, Option.some.injEq] at hi; subst hi
    rw [stands_runV D.ready S] at h
    obtain ⟨r, h1, h2⟩ := encodeQuotedString_spelled o s
    simp only [runV, execV, h2, Res.ok.injEq, List.nil_append] at h
    subst h
    exact .quotedStr hb hk' h1

theorem wr_elems (D : WriteReady W H M) {n : Nat} (ih : WritesUpto W H M o n) {e : TId} {ca' : Bool} {j : Instr} {vs : List Val} {loc : Nat → Loc}
    (hS : ∀ (k : Nat) x, vs[k]? = some x → Stands W H e ca' false j (loc k) x) (hf : ∀ x ∈ vs, TimesFine W e x)
    {path : Path} {b : Bytes} (h : arrayLoopV (runV W M o n) path j 0 vs [] = .ok b) :
    ∃ bs : List Bytes, bs.length = vs.length ∧ b = b! "[" ++ commas bs ++ b! "]" ∧
      ∀ (k : Nat) x bk, vs[k]? = some x → bs[k]? = some bk → Writes W M o e ca' false x bk := by
  obtain ⟨ts, h1, h2, h3⟩ := (arrayV_ok (pre_runV (contract_long D.fmt) D.honestV n) path j vs 0 [] b).mp h
  simp only [if_true, List.nil_append] at h3
  refine ⟨ts, h1, h3, fun k x bk hx hb => ?_⟩
  have S := hS k _ hx
  have hr := h2 k _ _ hx hb
  rw [← stands_runV D.ready S] at hr
  exact ih _ _ _ _ _ _ _ _ S (hf _ (List.mem_of_getElem? hx)) (by simp) hr

/-- The members of an object, in the order of the entries. -/
theorem wr_members {K V : Val → Bytes → Prop} {kvs : List (Val × Val)} {KD VD : Val → Bytes → Prop}
    {ms : List ((Val × Val) × (Bytes × Bytes))} (hp : (ms.map Prod.fst).Perm kvs) (hm : ∀ m ∈ ms, K m.1.1 m.2.1 ∧ V m.1.2 m.2.2)
    (ho : bmHas o.flags .unsortedMap = false → (ms.Pairwise fun a b => ByteLe (keyBody a.2.1) (keyBody b.2.1)) ∧ ∀ m ∈ ms, 2 ≤ m.2.1.length)
    (hK : ∀ kv ∈ kvs, ∀ b, K kv.1 b → KD kv.1 b) (hV : ∀ kv ∈ kvs, ∀ b, V kv.2 b → VD kv.2 b) :
    ∃ ns : List (Bytes × Bytes), ns.length = kvs.length ∧
      (∀ (i : Nat) kv m, kvs[i]? = some kv → ns[i]? = some m → KD kv.1 m.1) ∧
      (∀ (i : Nat) kv m, kvs[i]? = some kv → ns[i]? = some m → VD kv.2 m.2) ∧ InOrder o ns (ms.map Prod.snd) := by
  obtain ⟨L2, p1, p2⟩ := perm_map_inv Prod.fst hp.symm rfl
  have hg : ∀ (i : Nat) kv m, kvs[i]? = some kv → (L2.map Prod.snd)[i]? = some m → KD kv.1 m.1 ∧ VD kv.2 m.2 := by
    intro i kv m hx hj
    have hin := List.mem_of_getElem? hx
    rw [← p2, List.getElem?_map, Option.map_eq_some_iff] at hx
    rw [List.getElem?_map, Option.map_eq_some_iff] at hj
    obtain ⟨z, hz1, rfl⟩ := hx
    obtain ⟨z', hz2, rfl⟩ := hj
    rw [hz1] at hz2; cases hz2
    obtain ⟨h1, h2⟩ := hm z (p1.mem_iff.mp (List.mem_of_getElem? hz1))
    exact ⟨hK _ hin _ h1, hV _ hin _ h2⟩
  refine ⟨L2.map Prod.snd, by rw [← p2]; simp, fun i kv m h1 h2 => (hg i kv m h1 h2).1, fun i kv m h1 h2 => (hg i kv m h1 h2).2,
    (p1.map Prod.snd).symm, fun hu => ?_⟩
  exact ⟨by rw [List.pairwise_map]; exact (ho hu).1, fun m hm => by
    obtain ⟨m', hm', rfl⟩ := List.mem_map.mp hm
    exact (ho hu).2 m' hm'⟩

theorem wr_key {n : Nat} (ih : ∀ m, m ≤ n → WritesUpto W H M o m) {kt : TId} {x : Val} (hf : TimesFine W kt x) {b : Bytes}
    (h : KeyText W H o n kt x b) : KeyWrites W M o kt x b := by
  cases h with
  | str hs =>
    obtain ⟨r, h1, h2⟩ := encodeString_spelled o _
    rw [h2, List.nil_append]
    exact .str hs h1
  | nilText ht hp =>
    refine .nilText ?_ ht hp
    obtain ⟨e, he⟩ := hp
    rw [he]; simp
  | text hs ht hne S hle hr => exact .text hs ht hne (ih _ hle _ _ _ _ _ _ _ _ S hf (by simp) hr)
  | quoted hs ht S hle hr => exact .quoted hs ht (ih _ hle _ _ _ _ _ _ _ _ S hf (by simp) hr)

theorem wr_skey {n : Nat} (ih : ∀ m, m ≤ n → WritesUpto W H M o m) {y : Val} (hf : ∀ d x, y = .iface d x → TimesFine W d x) {b : Bytes}
    (h : SyncKeyText W H o n y b) : SyncKeyWrites W M o y b := by
  cases h with
  | str hs =>
    obtain ⟨r, h1, h2⟩ := encodeString_spelled o _
    rw [h2, List.nil_append]
    exact .str hs h1
  | text hs ht S hle hr => exact .text hs ht (ih _ hle _ _ _ _ _ _ _ _ S (hf _ _ rfl) (by simp) hr)
  | quoted hk ht S hle hr => exact .quoted hk ht (ih _ hle _ _ _ _ _ _ _ _ S (hf _ _ rfl) (by simp) hr)

/-! ## Structs -/

theorem map_nodup_inj {α β : Type} {f : α → β} {l : List α} (hn : (l.map f).Nodup) : ∀ {a b : α}, a ∈ l → b ∈ l → f a = f b → a = b := by
  induction l with
  | nil => intro a b h; cases h
  | cons z l ih =>
    rw [List.map_cons, List.nodup_cons] at hn
    intro a b ha hb he
    rcases List.mem_cons.mp ha with e1 | h1 <;> rcases List.mem_cons.mp hb with e2 | h2
    · rw [e1, e2]
    · exact absurd (by rw [← e1, he]; exact List.mem_map_of_mem h2) hn.1
    · exact absurd (by rw [← e2, ← he]; exact List.mem_map_of_mem h1) hn.1
    · exact ih hn.2 h1 h2 he

theorem sublist_head {α : Type} {k l : List α} {x : α} (h : k.Sublist (x :: l)) (hn : (x :: l).Nodup) (hx : x ∈ k) : k.head? = some x := by
  rw [List.nodup_cons] at hn
  cases h with
  | cons _ h => exact absurd (h.subset hx) hn.1
  | cons_cons _ h => rfl

theorem wr_struct (D : WriteReady W H M) {n : Nat} (ih : WritesUpto W H M o n) (S : Stands W H t ca false i p v) (hb : ByKind W.E t ca)
    (hs : IsStruct W.E t) (hf : TimesFine W t v) {path : Path} {b : Bytes} (h : run W H o (n + 1) path i p [] = .ok b) : Writes W M o t ca false v b := by
  obtain ⟨l, ms, hl, hsub, hout, hms, kept, c, hks, hkm, hc, rfl⟩ := struct_object D.ready D.fmt D.honest S hb hs h
  have hch : ∀ m x, (m, x) ∈ ms → ChosenField W.U.isLetter W.U.isDigit W.E t m := fun m x hm =>
    (hl.2 m).mp (hsub.subset (List.mem_map_of_mem (f := Prod.fst) hm))
  have hnodup : (ms.map Prod.fst).Nodup := by
    refine (hl.1.sublist hsub).imp ?_
    rintro a b hab rfl
    exact pathLt_asymm hab hab
  have huniq : ∀ m a c, (m, a) ∈ ms → (m, c) ∈ ms → a = c := by
    intro m a c ha hc
    exact congrArg Prod.snd (map_nodup_inj hnodup ha hc rfl)
  have hdoc : ∀ m, ∃ r : Bytes × Bool × Val × Bytes, (m ∈ ms.map Prod.fst → (m, r.1) ∈ ms ∧ FieldAt v m.path r.2.2.1 ∧
      (r.2.1 = true ↔ HasOpt m.decl (b! "string") ∧ BasicOrPtr W.E m.decl.typ) ∧ Writes W M o m.decl.typ ca r.2.1 r.2.2.1 r.1) ∧
      NamedAs o m.name r.2.2.2 ∧ fieldKey o m.name = b! "\"" ++ r.2.2.2 ++ b! "\":" := by
    intro m
    obtain ⟨k, k1, k2⟩ := fieldKey_named o m.name
    by_cases hm : m ∈ ms.map Prod.fst
    · obtain ⟨⟨m', a⟩, hma, rfl⟩ := List.mem_map.mp hm
      obtain ⟨x, j, p', q', path', h1, h2, h3, h4⟩ := hms _ _ hma
      obtain ⟨_, _, _, _, _, hpath, hprom, -⟩ := hch _ _ hma
      have hw := fieldAt_type D.ready.types h1 hs (repr_hasType S.holds) (promoted_type hs hprom)
      have hf' : TimesFine W m'.decl.typ x := fun t'' v'' hw' => hf _ _ (within_trans hw.2 hw')
      exact ⟨(a, q', x, k), fun _ => ⟨hma, h1, h3, ih _ _ _ _ _ _ _ _ h2 hf' (fun hq => (h3.mp hq).2) h4⟩, k1, k2⟩
    · exact ⟨([], false, .nil, k), fun h => absurd h hm, k1, k2⟩
  obtain ⟨r, hr⟩ := Classical.skolem.mp hdoc
  have hkeep : ∀ m ∈ ms.map Prod.fst, m ∈ kept.map Prod.fst ↔ ¬ NullDropped W.E m (r m).1 := by
    intro m hm
    have h1 := ((hr m).1 hm).1
    rw [← hkm _ h1]
    constructor
    · intro h2
      obtain ⟨⟨m', a⟩, hma, rfl⟩ := List.mem_map.mp h2
      rw [← huniq m' a _ (hks.subset hma) h1]
      exact hma
    · exact fun h2 => List.mem_map_of_mem (f := Prod.fst) h2
  have hlead : Lead (ms.map Prod.fst) (kept.map Prod.fst) c := by
    cases hm0 : ms with
    | nil =>
      subst hm0
      have : kept = [] := List.sublist_nil.mp hks
      subst this
      rcases hc with ⟨rfl, -⟩ | ⟨-, h, -⟩
      · exact .none (.inl rfl)
      · exact absurd rfl h
    | cons x ms' =>
      subst hm0
      have hx := hkm x List.mem_cons_self
      rcases hc with ⟨rfl, h1⟩ | ⟨rfl, h1, y, h2, h3⟩
      · by_cases hd : NullDropped W.E x.1 x.2
        · have := h1 x rfl hd
          subst this
          exact .none (.inl rfl)
        · have hm := List.mem_map_of_mem (f := Prod.fst) (hx.mpr hd)
          exact .none (.inr (sublist_head (hks.map Prod.fst) hnodup hm).symm)
      · simp only [List.head?_cons, Option.some.injEq] at h2
        subst h2
        refine .comma (by simpa using h1) fun he => ?_
        simp only [List.map_cons, List.head?_cons] at he
        have hm : x.1 ∈ kept.map Prod.fst := List.mem_of_mem_head? he.symm
        have h4 := (hkeep x.1 (by simp)).mp hm
        have h5 := ((hr x.1).1 (by simp)).1
        rw [huniq x.1 _ x.2 h5 List.mem_cons_self] at h4
        exact h4 h3
  have htext : kept.map (fun x => fieldKey o x.1.name ++ x.2) =
      (kept.map Prod.fst).map fun m => b! "\"" ++ (r m).2.2.2 ++ b! "\":" ++ (r m).1 := by
    rw [List.map_map]
    refine List.map_congr_left fun x hx => ?_
    have hx' := hks.subset hx
    have h1 := (hr x.1).1 (List.mem_map_of_mem (f := Prod.fst) hx')
    rw [Function.comp, (hr x.1).2.2, huniq x.1 x.2 _ hx' h1.1]
  rw [List.nil_append, htext]
  exact .struct (q' := fun m => (r m).2.1) (x := fun m => (r m).2.2.1) (b := fun m => (r m).1) (key := fun m => (r m).2.2.2) hb hs hl hsub hout
    (fun m hm => ((hr m).1 hm).2.1) (fun m hm => ((hr m).1 hm).2.2.1) (fun m hm => ((hr m).1 hm).2.2.2) (hks.map Prod.fst) hkeep
    (fun m _ => (hr m).2.1) hlead

/-! ## Natively handled types -/

theorem wr_special (D : WriteReady W H M) {n : Nat} (ih : ∀ m, m ≤ n → WritesUpto W H M o m) (S : Stands W H t ca q i p v) {s : Special}
    (hs : (W.E t).special = some s) (hf : TimesFine W t v) {path : Path} {b : Bytes} (h : run W H o (n + 1) path i p [] = .ok b) :
    Writes W M o t ca q v b := by
  have h0 := h
  obtain ⟨k, hm⟩ := S.made
  have hi := special_made hs hm
  rw [stands_runV D.ready S, hi] at h
  simp only [runV, execV] at h
  cases s with
  | time =>
    obtain ⟨x, rfl, -⟩ := repr_time D.ready.types hs S.holds
    obtain ⟨f1, f2⟩ := hf t x .refl
    exact .time hs (time_written f1 f2 h).1 (time_written f1 f2 h).2
  | duration =>
    obtain ⟨x, rfl, hx, -⟩ := repr_int D.ready.types (D.ready.types.duration t hs) S.holds
    cases x <;> simp [IntVal.kind] at hx
    exact .duration hs (duration_written h)
  | number =>
    obtain ⟨x, rfl, -⟩ := repr_str D.ready.types (D.ready.types.number t hs) S.holds
    simp only [encodeSpecialV] at h
    have key : b = (if x = [] then b! "0" else x) → (bmHas o.flags .noNumberValidation = false → x = [] ∨ IsNumber x) → Writes W M o t ca q (.str x) b := by
      intro hb hx
      split at hb
      · next h' => subst h'; subst hb; exact .number0 hs
      · next h' => subst hb; exact .number hs h' fun hv => (hx hv).resolve_left h'
    cases hv : bmHas o.flags .noNumberValidation with
    | true =>
      rw [hv] at h
      refine key ?_ (fun h => by rw [hv] at h; cases h)
      simp only [encodeNumber] at h
      revert h
      cases x <;> simp [exceptRes] <;> (intro h; exact h.symm)
    | false =>
      rw [hv] at h
      rcases C07_encodeNumber x [] with ⟨h1, h2⟩ | ⟨h1, -⟩
      · rw [h1] at h
        simp only [exceptRes, List.nil_append, Res.ok.injEq] at h
        refine key h.symm fun _ => ?_
        by_cases hx : x = []
        · exact .inl hx
        · rw [if_neg hx] at h2; exact .inr h2
      · rw [h1] at h; cases h
  | rawMessage =>
    obtain ⟨e, hk, he⟩ := D.ready.types.rawMessage t hs
    rcases repr_slice D.ready.types hk S.holds with ⟨rfl, -⟩ | ⟨d, vs, rfl, -, -, hvs⟩
    · simp only [encodeSpecialV, byteSliceOf, withRead, encodeRawMessage, List.nil_append, Res.ok.injEq] at h
      subst h
      exact .rawNil hs
    · obtain ⟨bs, hbs⟩ := bytesOf_some D.ready.types he (vs := vs) fun x hx => by
        obtain ⟨j, hj⟩ := List.mem_iff_getElem?.mp hx
        exact ⟨_, hvs j x hj⟩
      have ha := asBytes_of hbs
      simp only [encodeSpecialV, byteSliceOf, hbs, Option.map_some, withRead, encodeRawMessage, Res.ok.injEq] at h
      split at h
      · next hc =>
        simp only [List.nil_append] at h
        subst h
        exact .raw hs ha (.verbatim hc)
      · next hc =>
        obtain ⟨r, o1, o2⟩ := appendCompactJSON_squeezed (!bmHas o.flags .noHTMLEscaping) bs
        rw [o2, List.nil_append] at h
        subst h
        exact .raw hs ha (.compact (by simpa using hc) o1)
  | syncMap =>
    obtain ⟨es, kvs, rfl, -⟩ := repr_smap D.ready.types hs S.holds
    obtain ⟨ms, m1, m2, m3, -, m4⟩ := C39_members D.ready D.fmt D.honest D.order S hs rfl h0
    rw [List.nil_append] at m3
    have hin : ∀ kv ∈ kvs, ∃ d x, kv.2 = .iface d x := by
      intro kv hkv
      obtain ⟨m, hm1, rfl⟩ := List.mem_map.mp (m1.mem_iff.mpr hkv)
      obtain ⟨d, x, he, -⟩ := (m2 m hm1).2
      exact ⟨d, x, he⟩
    obtain ⟨ns, n1, n2, n3, n4⟩ := wr_members (o := o) (K := SyncKeyText W H o n)
      (V := fun y b => ∃ d x, y = .iface d x ∧ ∃ j a path' k, Stands W H d (isPtrK (W.E d).kind) false j a x ∧ k ≤ n ∧ run W H o k path' j a [] = .ok b)
      (KD := SyncKeyWrites W M o) (VD := fun y b => ∀ d x, y = .iface d x → Writes W M o d (isPtrK (W.E d).kind) false x b) m1 m2 m4
      (fun kv hkv b hb => wr_skey ih (fun d x he => timesFine_part hf (.skey hkv he)) hb)
      (fun kv hkv b hb d' x' he' => by
        obtain ⟨d, x, he, j, a, path', k, hS, hk, hr⟩ := hb
        rw [he] at he'; cases he'
        exact ih k hk _ _ _ _ _ _ _ _ hS (timesFine_part hf (.selem hkv he)) (by simp) hr)
    rw [m3]
    refine .smap hs n1 n2 (fun i kv m d x h1 h2 h3 => n3 i kv m h1 h2 d x h3) (fun kv hkv he => ?_) n4
    obtain ⟨d, x, h'⟩ := hin kv hkv
    rw [he] at h'; cases h'

/-! ## All values -/

theorem wr_upto (D : WriteReady W H M) (n : Nat) : WritesUpto W H M o n := by
  induction n using Nat.strongRecOn with
  | ind n ih =>
    intro t ca q i p v path b S hf hq h
    cases n with
    | zero => cases h
    | succ n =>
      have ih' : ∀ m, m ≤ n → WritesUpto W H M o m := fun m hm => ih m (by omega)
      cases hs : (W.E t).special with
      | some s => exact wr_special D ih' S hs hf h
      | none =>
        rcases picks_or_byKind (ca := ca) hs with hb | ⟨m, hp⟩
        · obtain ⟨k, hm⟩ := S.made
          have nq : isBasicK (W.E t).kind = false → isPtrK (W.E t).kind = false → q = false := by
            intro h1 h2
            cases q with
            | false => rfl
            | true =>
              rcases hq rfl with h | ⟨e, h, -⟩
              · rw [h1] at h; cases h
              · rw [h] at h2; cases h2
          cases hk : (W.E t).kind with
          | ptr e =>
            rcases C43_pointer (o := o) D.ready S hb hk with ⟨rfl, h1⟩ | ⟨x, j, a, rfl, hS, h1⟩
            · rw [h1, List.nil_append] at h
              cases h
              exact .ptrNil hb hk
            · rw [h1] at h
              refine .ptr hb hk (ih' n (Nat.le_refl n) _ _ _ _ _ _ _ _ hS (timesFine_part hf (.ptr hk)) (fun hq' => ?_) h)
              rcases hq hq' with h | ⟨e', h1, -, h2⟩
              · rw [hk] at h; cases h
              · rw [hk] at h1; cases h1; exact .inl h2
          | bool | int _ | float _ | string =>
            have hbk : isBasicK (W.E t).kind = true := by rw [hk]; rfl
            cases q with
            | true => exact wr_quoted D S hb hbk h
            | false => exact wr_basic D S hb hbk h
          | iface k' =>
            have hqf := nq (by rw [hk]; rfl) (by rw [hk]; rfl)
            subst hqf
            rcases C43_interface (o := o) D.ready S hb hk with ⟨rfl, h1⟩ | ⟨d, x, rfl, h1⟩
            · rw [h1, List.nil_append] at h
              cases h
              exact .ifaceNil hb hk
            · rcases h1 n with h2 | ⟨j, p', m, hS, hle, h2⟩
              · rw [h2] at h; cases h
              · rw [h2] at h
                exact .iface hb hk (ih' m hle _ _ _ _ _ _ _ _ hS (timesFine_part hf .iface) (by simp) h)
          | struct fs =>
            have hqf := nq (by rw [hk]; rfl) (by rw [hk]; rfl)
            subst hqf
            exact wr_struct D (ih' n (Nat.le_refl n)) S hb ⟨_, hk⟩ hf h
          | other =>
            have hqf := nq (by rw [hk]; rfl) (by rw [hk]; rfl)
            subst hqf
            rw [C42_unsupported S hb (.inl hk)] at h; cases h
          | slice e =>
            have hqf := nq (by rw [hk]; rfl) (by rw [hk]; rfl)
            subst hqf
            rw [stands_runV D.ready S] at h
            by_cases he : ByteElem W.E e
            · have hi := byKind_byteSlice hb hk ((isByteElem_iff _ _).mpr he) hm
              subst hi
              simp only [runV, execV] at h
              rcases repr_slice D.ready.types hk S.holds with ⟨rfl, -⟩ | ⟨d, vs, rfl, -, -, hvs⟩
              · simp only [byteSliceOf, withRead, encodeByteSlice, List.nil_append, Res.ok.injEq] at h
                subst h
                exact .bytesNil hb hk he
              · obtain ⟨bs, hbs⟩ := bytesOf_some D.ready.types he.1 (vs := vs) fun x hx => by
                  obtain ⟨j, hj⟩ := List.mem_iff_getElem?.mp hx
                  exact ⟨_, hvs j x hj⟩
                have ha := asBytes_of hbs
                simp only [byteSliceOf, hbs, Option.map_some, withRead, Res.ok.injEq] at h
                cases hr : bmHas o.flags .rawByteSlice with
                | false =>
                  rw [hr] at h
                  obtain ⟨txt, t1, t2, -, t4⟩ := C16_base64 bs [] o.esc
                  rw [t1, List.nil_append] at h
                  subst h
                  have := Writes.bytes (M := M) (o := o) hb hk he hr ha t2
                  simpa [strToken] using this
                | true =>
                  rw [hr] at h
                  obtain ⟨r, e1, e2⟩ := appendEscaped_spelled o bs
                  simp only [encodeByteSlice, if_true, e2, List.nil_append] at h
                  subst h
                  have := Writes.rawBytes (M := M) (o := o) hb hk he hr ha e1
                  simpa [strToken] using this
            · obtain ⟨k', j, hj, rfl⟩ := byKind_slice hb hk (by rw [← isByteElem_iff] at he; simpa using he) hm
              simp only [runV, execV] at h
              rcases repr_slice D.ready.types hk S.holds with ⟨rfl, -⟩ | ⟨d, vs, rfl, -, hd, hvs⟩
              · simp only at h
                split at h
                · next hc => cases h; exact .sliceNil0 hb hk he hc
                · next hc => cases h; exact .sliceNil hb hk he (by simpa using hc)
              · simp only at h
                split at h
                · next hz =>
                  have := List.eq_nil_of_length_eq_zero hz
                  subst this
                  cases h
                  exact .slice (bs := []) hb hk he rfl (by simp)
                · simp only [encodeArrayV, Bool.false_and, Bool.false_eq_true, if_false] at h
                  obtain ⟨bs, l1, l2, l3⟩ := wr_elems D (ih' n (Nat.le_refl n)) (e := e) (ca' := true) (j := j) (vs := vs)
                    (loc := fun i => .heap (d + i * (W.E e).size))
                    (fun k x hx => ⟨⟨k', hj⟩, hvs k x hx, fun _ => .inr ⟨_, fun h => hd (Nat.add_eq_zero_iff.mp h).1, rfl⟩⟩) (fun x hx => timesFine_part hf (.slice hk hx)) h
                  rw [l2]
                  exact .slice hb hk he l1 l3
          | array m e =>
            have hqf := nq (by rw [hk]; rfl) (by rw [hk]; rfl)
            subst hqf
            have hS := S
            rw [stands_runV D.ready S] at h
            obtain ⟨k', j, hj, rfl⟩ := byKind_array hb hk hm
            obtain ⟨vs, rfl, hlen, hvs⟩ := repr_array D.ready.types hk S.holds
            simp only [runV, execV, encodeArrayV] at h
            split at h
            · next hc =>
              simp only [Bool.and_eq_true] at hc
              have he := (isByteElem_iff _ _).mp hc.1
              obtain ⟨bs, hbs⟩ := bytesOf_some D.ready.types he.1 (vs := vs) fun x hx => by
                obtain ⟨j, hj⟩ := List.mem_iff_getElem?.mp hx
                exact ⟨_, hvs j x hj⟩
              obtain ⟨r, e1, e2⟩ := appendEscaped_spelled o bs
              simp only [hbs, withRead, e2, List.nil_append, Res.ok.injEq] at h
              subst h
              exact .byteArray hb hk he hc.2 (asBytes_of hbs) e1
            · next hc =>
              obtain ⟨bs, l1, l2, l3⟩ := wr_elems D (ih' n (Nat.le_refl n)) (e := e) (ca' := ca) (j := j) (vs := vs)
                (loc := fun i => p.add (i * (W.E e).size))
                (fun k x hx => ⟨⟨k', hj⟩, hvs k x hx, fun hc => by
                  rcases S.addr hc with h | ⟨a, ha, rfl⟩
                  · rw [hk] at h; cases h
                  · exact .inr ⟨a + k * (W.E e).size, fun h => ha (Nat.add_eq_zero_iff.mp h).1, rfl⟩⟩) (fun x hx => timesFine_part hf (.array hk hx)) h
              rw [l2]
              refine .array hb hk (fun he => ?_) l1 l3
              rw [(isByteElem_iff _ _).mpr he] at hc
              simpa using hc
          | map kt et =>
            have hqf := nq (by rw [hk]; rfl) (by rw [hk]; rfl)
            subst hqf
            by_cases hkey : KeyType W.E kt
            · rcases repr_map D.ready.types hk S.holds with ⟨rfl, -⟩ | ⟨a, es, kvs, rfl, -⟩
              · rw [(C25_map D.ready S hb hk hkey n path []).1 rfl] at h
                simp only [List.nil_append, Res.ok.injEq] at h
                split at h
                · next hc => subst h; exact .mapNil0 hb hk hkey hc
                · next hc => subst h; exact .mapNil hb hk hkey (by simpa using hc)
              · obtain ⟨ms, m1, m2, m3, -, m4⟩ := C23_C24_members D.ready D.fmt D.honest D.order S hb hk hkey rfl h
                rw [List.nil_append] at m3
                obtain ⟨ns, n1, n2, n3, n4⟩ := wr_members (o := o) (K := KeyText W H o n kt)
                  (V := fun y b => ∃ j a path', Stands W H et false false j (.heap a) y ∧ run W H o n path' j (.heap a) [] = .ok b)
                  (KD := KeyWrites W M o kt) (VD := Writes W M o et false false) m1 m2 m4
                  (fun kv hkv b hb' => wr_key ih' (timesFine_part hf (.key hk hkv)) hb')
                  (fun kv hkv b hb' => by
                    obtain ⟨j, a, path', hS, hr⟩ := hb'
                    exact ih' n (Nat.le_refl n) _ _ _ _ _ _ _ _ hS (timesFine_part hf (.elem hk hkv)) (by simp) hr)
                rw [m3]
                exact .map hb hk hkey n1 n2 n3 n4
            · rw [C42_unsupported S hb (.inr ⟨kt, et, hk, hkey⟩)] at h; cases h
        · exact wr_meth D S hs hp h

/-- C56: what is written for a value anywhere in a data structure. -/
theorem C56_value (D : WriteReady W H M) (S : Stands W H t ca q i p v) (hq : q = true → BasicOrPtr W.E t) (hf : TimesFine W t v)
    {n : Nat} {path : Path} {dst out : Bytes} (h : run W H o n path i p dst = .ok out) : ∃ b, out = dst ++ b ∧ Writes W M o t ca q v b := by
  obtain ⟨b, h1, rfl⟩ := (pre_ok_iff (pre_run (contract_long D.fmt) D.honest n path i p)).mp h
  exact ⟨b, rfl, wr_upto D n _ _ _ _ _ _ _ _ S hf hq h1⟩

/-- C56: what `MarshalOpts` returns, and what `AppendOpts` appends, without error, byte for byte. -/
theorem C56_bytes (D : WriteReady W H M) {w : Addr} (hx : ReprE W.E H.mem (some (t, w)) (.iface t v)) (hf : TimesFine W t v)
    {opts : List (Option Opt)} (ho : prepare opts = .ok o) {n : Nat} :
    (∀ b, marshalOpts W H n (some (t, w)) opts = .ret (some b) none → Writes W M o t (isPtrK (W.E t).kind) false v b) ∧
    (∀ dst out, appendOpts W H n dst (some (t, w)) opts = .ret (some out) none →
      ∃ b, out = dst ++ b ∧ Writes W M o t (isPtrK (W.E t).kind) false v b) := by
  have key : ∀ dst out, appendJSON W (run W H o n) [] (some (t, w)) dst = .ok out →
      ∃ b, out = dst ++ b ∧ Writes W M o t (isPtrK (W.E t).kind) false v b := by
    intro dst out h
    rcases entry (o := o) D.ready hx n with ⟨-, h1⟩ | ⟨i, p, m, S, -, h1⟩
    · rw [h1] at h; cases h
    · rw [h1] at h; exact C56_value D S (by simp) hf h
  constructor
  · intro b h
    simp only [marshalOpts, ho, marshalJSON] at h
    cases hr : appendJSON W (run W H o n) [] (some (t, w)) [] with
    | ok b' =>
      rw [hr] at h
      simp only [marshalRet, Ret.ret.injEq, Option.some.injEq, and_true] at h
      subst h
      obtain ⟨b, h1, h2⟩ := key _ _ hr
      rw [h1, List.nil_append]
      exact h2
    | _ => rw [hr] at h; simp [marshalRet] at h
  · intro dst out h
    simp only [appendOpts, ho, appendTop] at h
    cases hr : appendJSON W (run W H o n) [] (some (t, w)) dst with
    | ok b' =>
      rw [hr] at h
      simp only [appendRet, Ret.ret.injEq, Option.some.injEq, and_true] at h
      subst h
      exact key _ _ hr
    | _ => rw [hr] at h; simp [appendRet] at h

end Jettison.Props
