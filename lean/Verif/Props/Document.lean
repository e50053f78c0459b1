import Verif.Proofs.Doc
import Verif.Props.Structs
import Verif.Proofs.Walk

/-!
# The document (C30)

A call that succeeds appends the text of one JSON value, without whitespace, and its tree is
the one the documentation prescribes for the value (`Denotes`).
-/

namespace Jettison.Props
open Jettison Jettison.Spec Jettison.Model Jettison.Proofs

variable {W : World} {H : Heap} {M : MethV} {o : EncOpts} {t : TId} {ca q : Bool} {i : Instr} {p : Loc} {v : Val}

/-- The assumptions about the program, the standard library and the options. -/
structure DocReady (W : World) (H : Heap) (M : MethV) (o : EncOpts) : Prop where
  ready : Ready W H M
  fmt : FormatContract W.fmt
  honest : HonestAppend H.meth
  honestV : HonestAppend M
  names : GoNames W.U.isLetter W.U.isDigit W.E
  order : OrderOk W.order
  valid : ValidContract W.jsonValid
  escaping : bmHas o.flags .noStringEscaping = false

/-- Everything in the value is fine. -/
def AllFine (W : World) (M : MethV) (o : EncOpts) (t : TId) (v : Val) : Prop := ∀ t' v', Within W.E t v t' v' → Fine W M o t' v'

/-- The text is that of a tree of the value. -/
def DocOf (W : World) (M : MethV) (o : EncOpts) (t : TId) (ca q : Bool) (v : Val) (b : Bytes) : Prop :=
  ∃ j, CompactText j b ∧ Denotes W M o t ca q v j

/-- The claim for depth `n`. -/
def DocUpto (W : World) (H : Heap) (M : MethV) (o : EncOpts) (n : Nat) : Prop :=
  ∀ t ca q i p v path b, Stands W H t ca q i p v → AllFine W M o t v → (q = true → BasicOrPtr W.E t ∧ TagFine W o t v) →
    run W H o n path i p [] = .ok b → DocOf W M o t ca q v b

theorem allFine_part (h : AllFine W M o t v) {t' : TId} {v' : Val} (hp : Part W.E t v t' v') : AllFine W M o t' v' :=
  fun t'' v'' hw => h t'' v'' (within_trans (.step .refl hp) hw)

theorem doc_meth (D : DocReady W H M o) (S : Stands W H t ca q i p v) (hs : (W.E t).special = none) {m : MethKind} (hp : Picks W.E t ca m)
    (fine : Fine W M o t v) {n : Nat} {path : Path} {b : Bytes} (h : run W H o (n + 1) path i p [] = .ok b) : DocOf W M o t ca q v b := by
  have key : ∀ rt x u, Receives W.E W.ptrTo t m v rt x u → DocOf W M o t ca q v b := by
    intro rt x u hr
    have rel := C26_C46_relay_partial (o := o) D.ready D.valid S hs hp hr n path []
    rw [h] at rel
    cases rel with
    | ctx hc =>
      obtain ⟨j, hj⟩ := fine.meth hs _ _ _ _ _ _ _ _ hp hr hc
      exact ⟨j, hj, .meth hs hp hr (.ctx hc hj)⟩
    | app hc =>
      obtain ⟨j, hj⟩ := fine.meth hs _ _ _ _ _ _ _ _ hp hr hc
      exact ⟨j, hj, .meth hs hp hr (.app hc hj)⟩
    | verbatim hc hno =>
      obtain ⟨j, hj⟩ := fine.meth hs _ _ _ _ _ _ _ _ hp hr hc hno
      exact ⟨j, hj, .meth hs hp hr (.json hc (compact_isText hj))⟩
    | compacted hc hno hj hcj _ => exact ⟨_, hcj, .meth hs hp hr (.json hc hj)⟩
    | text hc => exact ⟨_, Gr.str _ _ (fine.meth hs _ _ _ _ _ _ _ _ hp hr hc), .meth hs hp hr (.text hc)⟩
  have hnil : MethSet.Has (W.E t).meths m → IsPtr W.E t ∨ IsIface W.E t → v = .nil → DocOf W M o t ca q v b := by
    intro hh hpi hv
    subst hv
    obtain ⟨k, hm⟩ := S.made
    have hi := picks_made hs hp hm
    rw [stands_runV D.ready S] at h
    subst hi
    have hb := (hasB_iff _ _).mp hh
    have hc : (isPtrK (W.E t).kind || (ifaceK (W.E t).kind).isSome) = true := by
      rcases hpi with h | h
      · rw [(isPtr_iff _ _).mp h]; rfl
      · obtain ⟨n, hn⟩ := ifaceK_some h; rw [hn]; simp
    simp only [runV, execV, encodeMarshalerV, hb, Bool.not_true, Bool.not_false, Bool.true_and, hc, if_true, List.nil_append, Res.ok.injEq] at h
    subst h
    exact ⟨.null, Gr.null, .methNil hs hp hh hpi⟩
  by_cases hh : MethSet.Has (W.E t).meths m
  · by_cases hif : IsIface W.E t
    · obtain ⟨k, hk⟩ := hif
      obtain ⟨x, -, hx⟩ := repr_iface D.ready.types hk S.holds
      cases hx with
      | nil => exact hnil hh (.inr ⟨k, hk⟩) rfl
      | direct => exact key _ _ _ (.dyn hh ⟨k, hk⟩)
      | indirect => exact key _ _ _ (.dyn hh ⟨k, hk⟩)
    · by_cases hpt : IsPtr W.E t
      · obtain ⟨e, he⟩ := hpt
        rcases repr_ptr D.ready.types he S.holds with ⟨hv, -⟩ | ⟨a, x, hv, -⟩
        · exact hnil hh (.inl ⟨e, he⟩) hv
        · exact key _ _ _ (.own hh hif fun _ => by simp [hv])
      · exact key _ _ _ (.own hh hif fun h => absurd h hpt)
  · rcases hp.1 with h' | ⟨-, -, h'⟩
    · exact absurd h' hh
    · exact key _ _ _ (.addr hh h')

theorem doc_basic (D : DocReady W H M o) (S : Stands W H t ca false i p v) (hb : ByKind W.E t ca) (hk : isBasicK (W.E t).kind = true)
    {n : Nat} {path : Path} {b : Bytes} (h : run W H o (n + 1) path i p [] = .ok b) : DocOf W M o t ca false v b := by
  obtain ⟨k, hm⟩ := S.made
  have hi := byKind_basic hb hk hm
  rw [stands_runV D.ready S] at h
  have hkk : (W.E t).kind = .bool ∨ (∃ k, (W.E t).kind = .int k) ∨ (∃ w, (W.E t).kind = .float w) ∨ (W.E t).kind = .string := by
    revert hk
    cases (W.E t).kind <;> simp [isBasicK, isInteger]
  rcases hkk with hk | ⟨k, hk⟩ | ⟨w, hk⟩ | hk
  · obtain ⟨x, rfl, -⟩ := repr_bool D.ready.types hk S.holds
    rw [hk] at hi; simp only [newBasicTypeInstr, Bool.false_eq_true, if_false, Option.some.injEq] at hi; subst hi
    simp only [runV, execV, Res.ok.injEq] at h
    subst h
    exact ⟨_, compact_bool x, .bool hb hk⟩
  · obtain ⟨x, rfl, -⟩ := repr_int D.ready.types hk S.holds
    rw [hk] at hi; simp only [newBasicTypeInstr, Bool.false_eq_true, if_false, Option.some.injEq] at hi; subst hi
    obtain ⟨out, h1, h2⟩ := C08_integer_literal x []
    simp only [runV, execV, h1, Res.ok.injEq, List.nil_append] at h
    subst h
    exact ⟨_, Gr.num _ (intLiteral_isNumber h2), .int hb hk h2⟩
  · obtain ⟨x, rfl, -⟩ := repr_float D.ready.types hk S.holds
    rw [hk] at hi; simp only [newBasicTypeInstr, Bool.false_eq_true, if_false, Option.some.injEq] at hi; subst hi
    simp only [runV, execV] at h
    cases hf : appendFloat W.fmt [] w x with
    | error e => rw [hf] at h; cases h
    | ok b' =>
      rw [hf] at h; cases h
      obtain ⟨h1, h2⟩ := float_tree D.fmt hf
      exact ⟨_, h1, .float hb hk h2⟩
  · obtain ⟨x, rfl, -⟩ := repr_str D.ready.types hk S.holds
    rw [hk] at hi; simp only [newBasicTypeInstr, Bool.false_eq_true, if_false, Option.some.injEq] at hi; subst hi
    obtain ⟨body, c, h1, h2, h3⟩ := encodeString_text D.escaping x
    simp only [runV, execV, h1, Res.ok.injEq] at h
    subst h
    exact ⟨_, Gr.str _ _ h2, .str hb hk h3⟩

theorem doc_quoted (D : DocReady W H M o) (S : Stands W H t ca true i p v) (hb : ByKind W.E t ca) (hk : isBasicK (W.E t).kind = true)
    (htag : TagFine W o t v) {n : Nat} {path : Path} {b : Bytes} (h : run W H o (n + 1) path i p [] = .ok b) : DocOf W M o t ca true v b := by
  have hkk : ((W.E t).kind = .bool ∨ (∃ k, (W.E t).kind = .int k) ∨ (∃ w, (W.E t).kind = .float w)) ∨ (W.E t).kind = .string := by
    revert hk
    cases (W.E t).kind <;> simp [isBasicK, isInteger]
  rcases hkk with hk' | hk'
  · obtain ⟨j, S', hr⟩ := C38_scalar (o := o) D.ready D.fmt S hb hk'
    have h2 : run W H o (n + 2) path i p [] = .ok b := (run_mono (Nat.le_succ _) (by rw [h]; simp)).trans h
    obtain ⟨text, h3, h4, h5⟩ := (hr n path [] b).mp h2
    obtain ⟨jt, h6, h7⟩ := doc_basic D S' hb hk h3
    rw [h4, List.nil_append]
    exact ⟨.str text, Gr.str _ _ h5, .quoted hb hk h7 h6⟩
  · obtain ⟨s, rfl, -⟩ := repr_str D.ready.types hk' S.holds
    obtain ⟨j, body, content, quoted, S', h1, h2, h3, h4, -⟩ := C38_string_partial (o := o) D.ready S hb hk' D.escaping
    rw [h3] at h
    simp only [List.nil_append, Res.ok.injEq] at h
    subst h
    obtain ⟨body', c, e1, e2, e3⟩ := encodeString_text D.escaping s
    obtain ⟨k, hm⟩ := S'.made
    have hi := byKind_basic hb hk hm
    rw [hk'] at hi; simp only [newBasicTypeInstr, Bool.false_eq_true, if_false, Option.some.injEq] at hi; subst hi
    have h5 := h1 0 path []
    rw [stands_runV D.ready S'] at h5
    simp only [runV, execV, e1, List.nil_append, Res.ok.injEq, strToken, List.cons.injEq, true_and, List.append_cancel_right_eq] at h5
    subst h5
    rw [h2] at e2
    cases e2
    exact ⟨.str (b! "\"" ++ content ++ b! "\""), Gr.str _ _ h4, .quoted hb hk (.str hb hk' e3) (Gr.str content content (htag.plain s content (.inl rfl) e3))⟩

theorem doc_elems (D : DocReady W H M o) {n : Nat} (ih : DocUpto W H M o n) {e : TId} {ca' : Bool} {j : Instr} {vs : List Val} {loc : Nat → Loc}
    (hS : ∀ (k : Nat) x, vs[k]? = some x → Stands W H e ca' false j (loc k) x) (hf : ∀ x ∈ vs, AllFine W M o e x)
    {path : Path} {b : Bytes} (h : arrayLoopV (runV W M o n) path j 0 vs [] = .ok b) :
    ∃ js : List Json, js.length = vs.length ∧ CompactText (.arr js) b ∧
      ∀ (k : Nat) x jk, vs[k]? = some x → js[k]? = some jk → Denotes W M o e ca' false x jk := by
  obtain ⟨ts, h1, h2, h3⟩ := (arrayV_ok (pre_runV (contract_long D.fmt) D.honestV n) path j vs 0 [] b).mp h
  simp only [if_true, List.nil_append] at h3
  have hz : ∀ z ∈ vs.zip ts, ∃ jk, CompactText jk z.2 ∧ Denotes W M o e ca' false z.1 jk := by
    intro z hz
    obtain ⟨k, hk⟩ := List.mem_iff_getElem?.mp hz
    rw [List.getElem?_zip_eq_some] at hk
    have S := hS k _ hk.1
    have hr := h2 k _ _ hk.1 hk.2
    rw [← stands_runV D.ready S] at hr
    exact ih _ _ _ _ _ _ _ _ S (hf _ (List.mem_of_getElem? hk.1)) (by simp) hr
  obtain ⟨L, l1, l2⟩ := exists_list hz
  have e1 : vs = L.map fun z => z.1.1 := by
    have := congrArg (List.map Prod.fst) l1
    rw [List.map_map, List.map_fst_zip (by omega)] at this
    exact this.symm
  have e2 : ts = L.map fun z => z.1.2 := by
    have := congrArg (List.map Prod.snd) l1
    rw [List.map_map, List.map_snd_zip (by omega)] at this
    exact this.symm
  refine ⟨L.map Prod.snd, by rw [e1]; simp, ?_, ?_⟩
  · rw [h3, e2]
    exact compact_arr (all2_map fun z hz => (l2 z hz).1)
  · intro k x jk hx hj
    rw [e1, List.getElem?_map, Option.map_eq_some_iff] at hx
    rw [List.getElem?_map, Option.map_eq_some_iff] at hj
    obtain ⟨z, hz1, rfl⟩ := hx
    obtain ⟨z', hz2, rfl⟩ := hj
    rw [hz1] at hz2; cases hz2
    exact (l2 z (List.mem_of_getElem? hz1)).2

/-- The members of an object made from entries. -/
theorem doc_members {K V : Val → Bytes → Prop} {kvs : List (Val × Val)} {KD : Val → Bytes → Prop} {VD : Val → Json → Prop}
    {ms : List ((Val × Val) × (Bytes × Bytes))} (hp : (ms.map Prod.fst).Perm kvs) (hm : ∀ m ∈ ms, K m.1.1 m.2.1 ∧ V m.1.2 m.2.2)
    (hK : ∀ kv ∈ kvs, ∀ b, K kv.1 b → ∃ kb c, b = strToken kb ∧ unescape kb = some c ∧ KD kv.1 c)
    (hV : ∀ kv ∈ kvs, ∀ b, V kv.2 b → ∃ j, CompactText j b ∧ VD kv.2 j) :
    ∃ ns ns' : List (Bytes × Json), CompactText (.obj ns') (objectOf (ms.map Prod.snd)) ∧ ns.length = kvs.length ∧
      (∀ (i : Nat) kv m, kvs[i]? = some kv → ns[i]? = some m → KD kv.1 m.1) ∧
      (∀ (i : Nat) kv m, kvs[i]? = some kv → ns[i]? = some m → VD kv.2 m.2) ∧ ns'.Perm ns := by
  have hz : ∀ m ∈ ms, ∃ r : Bytes × Json, MemberIs (m.2.1 ++ b! ":" ++ m.2.2) r ∧ KD m.1.1 r.1 ∧ VD m.1.2 r.2 := by
    intro m hm'
    have hin : m.1 ∈ kvs := hp.mem_iff.mp (List.mem_map_of_mem hm')
    obtain ⟨h1, h2⟩ := hm m hm'
    obtain ⟨kb, c, e1, e2, e3⟩ := hK _ hin _ h1
    obtain ⟨j, j1, j2⟩ := hV _ hin _ h2
    exact ⟨(c, j), ⟨kb, m.2.2, by simp [e1], e2, j1⟩, e3, j2⟩
  obtain ⟨L, l1, l2⟩ := exists_list hz
  have e1 : kvs.Perm (L.map fun z => z.1.1) := by
    have : ms.map Prod.fst = L.map fun z => z.1.1 := by rw [← l1, List.map_map]; rfl
    rw [← this]; exact hp.symm
  obtain ⟨L2, p1, p2⟩ := perm_map_inv (fun z : (((Val × Val) × (Bytes × Bytes)) × (Bytes × Json)) => z.1.1) e1 rfl
  have hg : ∀ (i : Nat) kv m, kvs[i]? = some kv → (L2.map Prod.snd)[i]? = some m → KD kv.1 m.1 ∧ VD kv.2 m.2 := by
    intro i kv m hx hj
    rw [← p2, List.getElem?_map, Option.map_eq_some_iff] at hx
    rw [List.getElem?_map, Option.map_eq_some_iff] at hj
    obtain ⟨z, hz1, rfl⟩ := hx
    obtain ⟨z', hz2, rfl⟩ := hj
    rw [hz1] at hz2; cases hz2
    exact (l2 z (p1.mem_iff.mp (List.mem_of_getElem? hz1))).2
  refine ⟨L2.map Prod.snd, L.map Prod.snd, ?_, by rw [← p2]; simp, fun i kv m h1 h2 => (hg i kv m h1 h2).1,
    fun i kv m h1 h2 => (hg i kv m h1 h2).2, (p1.map Prod.snd).symm⟩
  rw [objectOf, ← l1, List.map_map, List.map_map]
  exact compact_obj (all2_map fun z hz => (l2 z hz).1)

/-! ## Keys -/

/-- The tree of a text key is a string. -/
theorem key_str {kt : TId} {x : Val} {j : Json} (hs : (W.E kt).special = none) (hp : Picks W.E kt ca .text) (hi : IsIface W.E kt ∨ IsPtr W.E kt → x ≠ .nil)
    (h : Denotes W M o kt ca false x j) : ∃ c, j = .str c := by
  have hb : ¬ ByKind W.E kt ca := picks_byKind hp
  cases h with
  | methNil _ _ _ h => exact absurd rfl (hi h.symm)
  | meth _ hp' _ hm =>
    have := picks_unique hp hp'
    subst this
    cases hm
    exact ⟨_, rfl⟩
  | _ => first | (exfalso; exact hb ‹_›) | (exfalso; simp_all)

theorem key_time {kt : TId} {x : Val} {j : Json} (hs : (W.E kt).special = some .time) (hu : bmHas o.flags .unixTime = false)
    (h : Denotes W M o kt ca false x j) : ∃ c, j = .str c := by
  have hb : ¬ ByKind W.E kt ca := fun h => by rw [h.special] at hs; cases hs
  cases h with
  | time _ ht =>
    cases ht with
    | unix h => rw [hu] at h; cases h
    | _ => exact ⟨_, rfl⟩
  | _ => first | (exfalso; exact hb ‹_›) | (exfalso; simp_all)

theorem key_duration {kt : TId} {x : Val} {j : Json} (hs : (W.E kt).special = some .duration) (hd : o.durFmt ≠ .str)
    (h : Denotes W M o kt ca false x j) : ∃ c, j = .num c := by
  have hb : ¬ ByKind W.E kt ca := fun h => by rw [h.special] at hs; cases hs
  cases h with
  | duration _ ht =>
    cases ht with
    | str h => exact absurd h hd
    | _ => exact ⟨_, rfl⟩
  | _ => first | (exfalso; exact hb ‹_›) | (exfalso; simp_all)

theorem key_int {kt : TId} {x : Val} {j : Json} {k : IntK} (hb : ByKind W.E kt ca) (hk : (W.E kt).kind = .int k)
    (h : Denotes W M o kt ca false x j) : ∃ c, j = .num c := by
  have hs := hb.special
  cases h with
  | int => exact ⟨_, rfl⟩
  | methNil _ hp => exact absurd hb (picks_byKind hp)
  | meth _ hp => exact absurd hb (picks_byKind hp)
  | struct _ hst => obtain ⟨fs, hf⟩ := hst; unfold HasFields at hf; rw [hk] at hf; cases hf
  | _ => exfalso; simp_all

theorem num_key {kt : TId} {x : Val} {j : Json} {b : Bytes} (hj : ∃ c, j = .num c) (hc : CompactText j b) (hs : (W.E kt).kind ≠ .string)
    (ht : (W.E kt).meths.text = false) (h : Denotes W M o kt ca false x j) :
    ∃ kb c, b! "\"" ++ b ++ b! "\"" = strToken kb ∧ unescape kb = some c ∧ KeyDenotes W M o kt ca x c := by
  obtain ⟨c, rfl⟩ := hj
  obtain ⟨rfl, hn⟩ := compact_num hc
  exact ⟨b, b, by simp [strToken], unescape_plain _ (number_plain hn), .num hs ht h⟩

theorem str_key {kt : TId} {x : Val} {j : Json} {b : Bytes} (hj : ∃ c, j = .str c) (hc : CompactText j b) (hs : (W.E kt).kind ≠ .string)
    (ht : (W.E kt).meths.text = true) (h : Denotes W M o kt ca false x j) : ∃ kb c, b = strToken kb ∧ unescape kb = some c ∧ KeyDenotes W M o kt ca x c := by
  obtain ⟨c, rfl⟩ := hj
  obtain ⟨kb, h1, h2⟩ := compact_str hc
  exact ⟨kb, c, h1, h2, .text hs ht h⟩

theorem key_doc (D : DocReady W H M o) {n : Nat} (ih : ∀ m, m ≤ n → DocUpto W H M o m) {kt : TId} (hkt : KeyType W.E kt) {x : Val}
    (hkf : KeyFine W o kt x) (hf : AllFine W M o kt x) {b : Bytes} (h : KeyText W H o n kt x b) :
    ∃ kb c, b = strToken kb ∧ unescape kb = some c ∧ KeyDenotes W M o kt false x c := by
  cases h with
  | str hs =>
    obtain ⟨body, c, h1, h2, h3⟩ := encodeString_text D.escaping _
    exact ⟨body, c, h1, h2, .str hs h3⟩
  | nilText ht hp => exact ⟨[], [], rfl, rfl, .nilText ht hp⟩
  | text hs ht hne S hle hr =>
    obtain ⟨j, h1, h2⟩ := ih _ hle _ _ _ _ _ _ _ _ S hf (by simp) hr
    refine str_key ?_ h1 hs ht h2
    rcases hkf.text hs ht with ⟨a1, a2, a3⟩ | ⟨a1, a2⟩
    · exact key_str a1 a2 (fun h => h.elim a3 hne) h2
    · exact key_time a1 a2 h2
  | quoted hs ht S hle hr =>
    obtain ⟨j, h1, h2⟩ := ih _ hle _ _ _ _ _ _ _ _ S hf (by simp) hr
    refine num_key ?_ h1 hs ht h2
    rcases hkf.num hs ht with hb | ⟨a1, a2⟩
    · rcases hkt with h | ⟨k, hk⟩ | h
      · exact absurd h hs
      · exact key_int hb hk h2
      · rw [ht] at h; cases h
    · exact key_duration a1 a2 h2

theorem skey_doc (D : DocReady W H M o) {n : Nat} (ih : ∀ m, m ≤ n → DocUpto W H M o m) {y : Val}
    (hkf : ∀ d x, y = .iface d x → KeyFine W o d x ∧ (IsPtr W.E d → x ≠ .nil)) (hf : ∀ d x, y = .iface d x → AllFine W M o d x) {b : Bytes}
    (h : SyncKeyText W H o n y b) : ∃ kb c, b = strToken kb ∧ unescape kb = some c ∧ SyncKeyDenotes W M o y c := by
  have lift : ∀ {d x}, (∃ kb c, b = strToken kb ∧ unescape kb = some c ∧ KeyDenotes W M o d (isPtrK (W.E d).kind) x c) →
      ∃ kb c, b = strToken kb ∧ unescape kb = some c ∧ SyncKeyDenotes W M o (.iface d x) c := by
    rintro d x ⟨kb, c, h1, h2, h3⟩
    exact ⟨kb, c, h1, h2, .key h3⟩
  cases h with
  | str hs =>
    obtain ⟨body, c, h1, h2, h3⟩ := encodeString_text D.escaping _
    exact lift ⟨body, c, h1, h2, .str hs h3⟩
  | @text kt x _ _ _ _ _ hs ht S hle hr =>
    obtain ⟨kf, hne⟩ := hkf _ _ rfl
    obtain ⟨j, h1, h2⟩ := ih _ hle _ _ _ _ _ _ _ _ S (hf _ _ rfl) (by simp) hr
    refine lift (str_key ?_ h1 hs ht h2)
    rcases kf.text hs ht with ⟨a1, a2, a3⟩ | ⟨a1, a2⟩
    · exact key_str a1 (picks_ptr.mpr a2) (fun h => h.elim a3 hne) h2
    · exact key_time a1 a2 h2
  | @quoted kt k x _ _ _ _ _ hk ht S hle hr =>
    obtain ⟨kf, -⟩ := hkf _ _ rfl
    have hs : (W.E kt).kind ≠ .string := by rw [hk]; simp
    obtain ⟨j, h1, h2⟩ := ih _ hle _ _ _ _ _ _ _ _ S (hf _ _ rfl) (by simp) hr
    refine lift (num_key ?_ h1 hs ht h2)
    rcases kf.num hs ht with hb | ⟨a1, a2⟩
    · exact key_int (byKind_ptr' hb) hk h2
    · exact key_duration a1 a2 h2

/-! ## Structs -/

theorem doc_struct (D : DocReady W H M o) {n : Nat} (ih : DocUpto W H M o n) (S : Stands W H t ca false i p v) (hb : ByKind W.E t ca)
    (hs : IsStruct W.E t) (hf : AllFine W M o t v) {path : Path} {b : Bytes} (h : run W H o (n + 1) path i p [] = .ok b) : DocOf W M o t ca false v b := by
  obtain ⟨l, ms, hl, hsub, hout, hms, hobj⟩ := C20_C21_C22_object_partial D.ready D.fmt D.honest D.names S hb hs h
  have fine := hf t v .refl
  have hch : ∀ m x, (m, x) ∈ ms → ChosenField W.U.isLetter W.U.isDigit W.E t m := fun m x hm =>
    (hl.2 m).mp (hsub.subset (List.mem_map_of_mem (f := Prod.fst) hm))
  have hnd : ∀ x ∈ ms, ¬ NullDropped W.E x.1 x.2 := by
    rintro ⟨m, x⟩ hx ⟨h1, h2, -⟩
    exact fine.null m hs (hch m x hx) h1 h2
  obtain ⟨kept, key, hks, hkm, hkey, rfl⟩ := hobj fun x hx hd => absurd hd (hnd x (List.mem_of_mem_head? hx))
  have hpw : (ms.map Prod.fst).Pairwise (fun a b => PathLt a.path b.path) := hl.1.sublist hsub
  have hnodup : ms.Nodup := by
    rw [List.pairwise_map] at hpw
    refine hpw.imp ?_
    rintro a b hab rfl
    exact pathLt_asymm hab hab
  have hk : kept = ms := sublist_full hks hnodup fun x hx => (hkm x hx).mpr (hnd x hx)
  subst hk
  have huniq : ∀ m a c, (m, a) ∈ kept → (m, c) ∈ kept → a = c := by
    intro m a c ha hc
    rw [List.pairwise_map] at hpw
    apply Classical.byContradiction
    intro hne
    have : ∀ {L : List (MField × Bytes)}, L.Pairwise (fun a b => PathLt a.1.path b.1.path) → (m, a) ∈ L → (m, c) ∈ L → False := by
      intro L hL
      induction hL with
      | nil => intro h; cases h
      | @cons z L hz _ ih =>
        intro h1 h2
        rcases List.mem_cons.mp h1 with e1 | h1 <;> rcases List.mem_cons.mp h2 with e2 | h2
        · rw [← e1] at e2; cases e2; exact hne rfl
        · have := hz _ h2; rw [← e1] at this; exact pathLt_asymm this this
        · have := hz _ h1; rw [← e2] at this; exact pathLt_asymm this this
        · exact ih h1 h2
    exact this hpw ha hc
  have hdoc : ∀ m, ∃ r : Bytes × Bool × Val × Json, m ∈ kept.map Prod.fst → (m, r.1) ∈ kept ∧ FieldAt v m.path r.2.2.1 ∧
      (r.2.1 = true ↔ HasOpt m.decl (b! "string") ∧ BasicOrPtr W.E m.decl.typ) ∧ CompactText r.2.2.2 r.1 ∧
      Denotes W M o m.decl.typ ca r.2.1 r.2.2.1 r.2.2.2 := by
    intro m
    by_cases hm : m ∈ kept.map Prod.fst
    · obtain ⟨⟨m', a⟩, hma, rfl⟩ := List.mem_map.mp hm
      obtain ⟨x, j, p', q', path', h1, h2, h3, h4⟩ := hms _ _ hma
      have hc := hch _ _ hma
      have hc' := hc
      obtain ⟨_, _, _, _, _, hpath, hprom, -⟩ := hc'
      have hw := fieldAt_type D.ready.types h1 hs (repr_hasType S.holds) (promoted_type hs hprom)
      have hf' : AllFine W M o m'.decl.typ x := fun t'' v'' hw' => hf _ _ (within_trans hw.2 hw')
      obtain ⟨j, j1, j2⟩ := ih _ _ _ _ _ _ _ _ h2 hf' (fun hq => ⟨(h3.mp hq).2, fine.tag m' x hc h1 (h3.mp hq).1 (h3.mp hq).2⟩) h4
      exact ⟨(a, q', x, j), fun _ => ⟨hma, h1, h3, j1, j2⟩⟩
    · exact ⟨([], false, .nil, .null), fun h => absurd h hm⟩
  obtain ⟨r, hr⟩ := Classical.skolem.mp hdoc
  refine ⟨.obj ((kept.map Prod.fst).map fun m => (m.name, (r m).2.2.2)), ?_,
    .struct (q' := fun m => (r m).2.1) (x := fun m => (r m).2.2.1) (j := fun m => (r m).2.2.2) hb hs hl hsub hout
      (fun m hm => (hr m hm).2.1) (fun m hm => (hr m hm).2.2.1) (fun m hm => (hr m hm).2.2.2.2)⟩
  rw [List.nil_append, List.map_map]
  refine compact_obj (all2_map ?_)
  rintro ⟨m, a⟩ hma
  have hm : m ∈ kept.map Prod.fst := List.mem_map_of_mem (f := Prod.fst) hma
  obtain ⟨body, k1, k2⟩ := hkey m (hsub.subset hm)
  have h1 := hr m hm
  have h2 := huniq m _ _ hma h1.1
  exact ⟨body, a, by simp [k1], k2, by rw [h2]; exact h1.2.2.2.1⟩

/-! ## Natively handled types -/

theorem special_made {E : Env} {t : TId} {ca q : Bool} {s : Special} {k : Nat} {i : Instr} (hs : (E t).special = some s)
    (hm : newInstruction E k t ca q = some i) : i = .goType s := by
  obtain ⟨k, rfl⟩ := byKind_pos hm
  simp only [newInstruction, newGoTypeInstr, hs, Option.map_some] at hm
  simpa using hm.symm

theorem doc_special (D : DocReady W H M o) {n : Nat} (ih : ∀ m, m ≤ n → DocUpto W H M o m) (S : Stands W H t ca false i p v) {s : Special}
    (hs : (W.E t).special = some s) (hf : AllFine W M o t v) {path : Path} {b : Bytes} (h : run W H o (n + 1) path i p [] = .ok b) :
    DocOf W M o t ca false v b := by
  have fine := hf t v .refl
  have h0 := h
  obtain ⟨k, hm⟩ := S.made
  have hi := special_made hs hm
  rw [stands_runV D.ready S, hi] at h
  simp only [runV, execV] at h
  cases s with
  | time =>
    obtain ⟨x, rfl, -⟩ := repr_time D.ready.types hs S.holds
    obtain ⟨j, h1, h2⟩ := time_tree (fine.time x rfl) h
    exact ⟨j, h1, .time hs h2⟩
  | duration =>
    obtain ⟨x, rfl, hx, -⟩ := repr_int D.ready.types (D.ready.types.duration t hs) S.holds
    cases x <;> simp [IntVal.kind] at hx
    obtain ⟨j, h1, h2⟩ := duration_tree D.fmt h
    exact ⟨j, h1, .duration hs h2⟩
  | number =>
    obtain ⟨x, rfl, -⟩ := repr_str D.ready.types (D.ready.types.number t hs) S.holds
    simp only [encodeSpecialV] at h
    have hzero : IsNumber (b! "0") := ⟨[], b! "0", [], [], rfl, .inl rfl, .inl rfl, .inl rfl, .inl rfl⟩
    have key : b = (if x = [] then b! "0" else x) → (x = [] ∨ IsNumber x) → DocOf W M o t ca false (.str x) b := by
      intro hb hx
      split at hb
      · next h' => subst h'; subst hb; exact ⟨_, Gr.num _ hzero, .number0 hs⟩
      · next h' =>
        subst hb
        have hx := hx.resolve_left h'
        exact ⟨_, Gr.num _ hx, .number hs hx⟩
    cases hv : bmHas o.flags .noNumberValidation with
    | true =>
      rw [hv] at h
      refine key ?_ (fine.number x hs rfl hv)
      simp only [encodeNumber] at h
      revert h
      cases x <;> simp [exceptRes] <;> (intro h; exact h.symm)
    | false =>
      rw [hv] at h
      rcases C07_encodeNumber x [] with ⟨h1, h2⟩ | ⟨h1, -⟩
      · rw [h1] at h
        simp only [exceptRes, List.nil_append, Res.ok.injEq] at h
        refine key h.symm ?_
        by_cases hx : x = []
        · exact .inl hx
        · rw [if_neg hx] at h2; exact .inr h2
      · rw [h1] at h; cases h
  | rawMessage =>
    obtain ⟨e, hk, he⟩ := D.ready.types.rawMessage t hs
    rcases repr_slice D.ready.types hk S.holds with ⟨rfl, -⟩ | ⟨d, vs, rfl, -, -, hvs⟩
    · simp only [encodeSpecialV, byteSliceOf, withRead, encodeRawMessage, List.nil_append, Res.ok.injEq] at h
      subst h
      exact ⟨_, Gr.null, .rawNil hs⟩
    · obtain ⟨bs, hbs⟩ := bytesOf_some D.ready.types he (vs := vs) fun x hx => by
        obtain ⟨j, hj⟩ := List.mem_iff_getElem?.mp hx
        exact ⟨_, hvs j x hj⟩
      have ha := asBytes_of hbs
      obtain ⟨j, j1, j2⟩ := fine.raw vs bs hs rfl ha
      simp only [encodeSpecialV, byteSliceOf, hbs, Option.map_some, withRead, encodeRawMessage, Res.ok.injEq] at h
      split at h
      · next hc =>
        simp only [List.nil_append] at h
        subst h
        exact ⟨j, j2 hc, .raw hs ha j1⟩
      · obtain ⟨out, o1, o2⟩ := C14_compact_value [] bs (!bmHas o.flags .noHTMLEscaping) j j1
        rw [o1, List.nil_append] at h
        subst h
        exact ⟨j, o2, .raw hs ha j1⟩
  | syncMap =>
    obtain ⟨es, kvs, rfl, -⟩ := repr_smap D.ready.types hs S.holds
    obtain ⟨ms, m1, m2, m3, -⟩ := C39_members D.ready D.fmt D.honest D.order S hs rfl h0
    rw [List.nil_append] at m3
    obtain ⟨ns, ns', n1, n2, n3, n4, n5⟩ := doc_members (K := SyncKeyText W H o n)
      (V := fun y b => ∃ d x, y = .iface d x ∧ ∃ j a path' k, Stands W H d (isPtrK (W.E d).kind) false j a x ∧ k ≤ n ∧ run W H o k path' j a [] = .ok b)
      (KD := SyncKeyDenotes W M o) (VD := HeldDenotes W M o) m1 m2
      (fun kv hkv b hb => skey_doc D ih (fun d x he => fine.skey kvs kv d x rfl hkv he) (fun d x he => allFine_part hf (.skey hkv he)) hb)
      (fun kv hkv b hb => by
        obtain ⟨d, x, he, j, a, path', k, hS, hk, hr⟩ := hb
        obtain ⟨jj, h1, h2⟩ := ih k hk _ _ _ _ _ _ _ _ hS (allFine_part hf (.selem hkv he)) (by simp) hr
        exact ⟨jj, h1, by rw [he]; exact .val h2⟩)
    rw [m3]
    exact ⟨_, n1, .smap hs n2 n3 n4 n5⟩

/-! ## All values -/

theorem byteElem_bytes (D : DocReady W H M o) {e : TId} (he : ByteElem W.E e) {vs : List Val} (h : ∀ x ∈ vs, ∃ p, Repr W.E H.mem e p x) :
    ∃ b, bytesOf vs = some b ∧ AsBytes vs b := by
  obtain ⟨b, hb⟩ := bytesOf_some D.ready.types he.1 h
  exact ⟨b, hb, asBytes_of hb⟩

theorem doc_upto (D : DocReady W H M o) (n : Nat) : DocUpto W H M o n := by
  induction n using Nat.strongRecOn with
  | ind n ih =>
    intro t ca q i p v path b S hf hq h
    cases n with
    | zero => cases h
    | succ n =>
      have ih' : ∀ m, m ≤ n → DocUpto W H M o m := fun m hm => ih m (by omega)
      have fine := hf t v .refl
      cases hs : (W.E t).special with
      | some s =>
        cases q with
        | true => have := (hq rfl).2.native.1; rw [hs] at this; cases this
        | false => exact doc_special D ih' S hs hf h
      | none =>
        rcases picks_or_byKind (ca := ca) hs with hb | ⟨m, hp⟩
        · obtain ⟨k, hm⟩ := S.made
          have nq : isBasicK (W.E t).kind = false → isPtrK (W.E t).kind = false → q = false := by
            intro h1 h2
            cases q with
            | false => rfl
            | true =>
              rcases (hq rfl).1 with h | ⟨e, h, -⟩
              · rw [h1] at h; cases h
              · rw [h] at h2; cases h2
          cases hk : (W.E t).kind with
          | ptr e =>
            rcases C43_pointer (o := o) D.ready S hb hk with ⟨rfl, h1⟩ | ⟨x, j, a, rfl, hS, h1⟩
            · rw [h1, List.nil_append] at h
              cases h
              exact ⟨_, Gr.null, .ptrNil hb hk⟩
            · rw [h1] at h
              obtain ⟨jj, j1, j2⟩ := ih' n (Nat.le_refl n) _ _ _ _ _ _ _ _ hS (allFine_part hf (.ptr hk)) (fun hq' => by
                obtain ⟨hbp, htag⟩ := hq hq'
                have hbe : isBasicK (W.E e).kind = true := by
                  rcases hbp with h | ⟨e', h1, -, h2⟩
                  · rw [hk] at h; cases h
                  · rw [hk] at h1; cases h1; exact h2
                refine ⟨.inl hbe, ⟨htag.native.2 e hk, fun e' he' => ?_⟩, fun s c hv hc => ?_⟩
                · rw [he'] at hbe; cases hbe
                · rcases hv with rfl | rfl
                  · exact htag.plain s c (.inr rfl) hc
                  · have ht := repr_hasType hS.holds
                    generalize hy : Val.ptr (.str s) = y at ht
                    cases ht with
                    | ptr hp _ => rw [hp] at hbe; cases hbe
                    | iface hi _ => rw [hi] at hbe; cases hbe
                    | _ => cases hy) h
              exact ⟨jj, j1, .ptr hb hk j2⟩
          | bool | int _ | float _ | string =>
            have hbk : isBasicK (W.E t).kind = true := by rw [hk]; rfl
            cases q with
            | true => exact doc_quoted D S hb hbk (hq rfl).2 h
            | false => exact doc_basic D S hb hbk h
          | iface k' =>
            have hqf := nq (by rw [hk]; rfl) (by rw [hk]; rfl)
            subst hqf
            rcases C43_interface (o := o) D.ready S hb hk with ⟨rfl, h1⟩ | ⟨d, x, rfl, h1⟩
            · rw [h1, List.nil_append] at h
              cases h
              exact ⟨_, Gr.null, .iface hb hk .nil⟩
            · rcases h1 n with h2 | ⟨j, p', m, hS, hle, h2⟩
              · rw [h2] at h; cases h
              · rw [h2] at h
                obtain ⟨jj, j1, j2⟩ := ih' m hle _ _ _ _ _ _ _ _ hS (allFine_part hf .iface) (by simp) h
                exact ⟨jj, j1, .iface hb hk (.val j2)⟩
          | struct fs =>
            have hqf := nq (by rw [hk]; rfl) (by rw [hk]; rfl)
            subst hqf
            exact doc_struct D (ih' n (Nat.le_refl n)) S hb ⟨_, hk⟩ hf h
          | other =>
            have hqf := nq (by rw [hk]; rfl) (by rw [hk]; rfl)
            subst hqf
            rw [C42_unsupported S hb (.inl hk)] at h; cases h
          | slice e =>
            have hqf := nq (by rw [hk]; rfl) (by rw [hk]; rfl)
            subst hqf
            rw [stands_runV D.ready S] at h
            by_cases he : ByteElem W.E e
            · have hi := byKind_byteSlice hb hk ((isByteElem_iff _ _).mpr he) hm
              subst hi
              simp only [runV, execV] at h
              rcases repr_slice D.ready.types hk S.holds with ⟨rfl, -⟩ | ⟨d, vs, rfl, -, -, hvs⟩
              · simp only [byteSliceOf, withRead, encodeByteSlice, List.nil_append, Res.ok.injEq] at h
                subst h
                exact ⟨_, Gr.null, .bytesNil hb hk he (fine.nilBytes e hs hk he rfl)⟩
              · obtain ⟨bs, hbs, ha⟩ := byteElem_bytes D he (vs := vs) fun x hx => by
                  obtain ⟨j, hj⟩ := List.mem_iff_getElem?.mp hx
                  exact ⟨_, hvs j x hj⟩
                simp only [byteSliceOf, hbs, Option.map_some, withRead, Res.ok.injEq] at h
                cases hr : bmHas o.flags .rawByteSlice with
                | false =>
                  rw [hr] at h
                  obtain ⟨txt, t1, t2, -, t4⟩ := C16_base64 bs [] o.esc
                  rw [t1, List.nil_append] at h
                  subst h
                  exact ⟨.str txt, Gr.str txt txt (unescape_plain _ (base64_plainBytes t2)), .bytes hb hk he hr ha t2⟩
                | true =>
                  rw [hr] at h
                  obtain ⟨body, c, e1, e2, e3⟩ := escaped_text D.escaping bs
                  simp only [encodeByteSlice, if_true, e1, List.nil_append] at h
                  subst h
                  exact ⟨.str c, Gr.str body c e2, .rawBytes hb hk he hr ha e3⟩
            · obtain ⟨k', j, hj, rfl⟩ := byKind_slice hb hk (by rw [← isByteElem_iff] at he; simpa using he) hm
              simp only [runV, execV] at h
              rcases repr_slice D.ready.types hk S.holds with ⟨rfl, -⟩ | ⟨d, vs, rfl, -, hd, hvs⟩
              · simp only at h
                split at h
                · next hc => cases h; exact ⟨_, compact_arr .nil, .sliceNil0 hb hk hc⟩
                · next hc => cases h; exact ⟨_, Gr.null, .sliceNil hb hk he (by simpa using hc)⟩
              · simp only at h
                split at h
                · next hz =>
                  have := List.eq_nil_of_length_eq_zero hz
                  subst this
                  cases h
                  exact ⟨_, compact_arr .nil, .slice hb hk he rfl (by simp)⟩
                · simp only [encodeArrayV, Bool.false_and, Bool.false_eq_true, if_false] at h
                  obtain ⟨js, l1, l2, l3⟩ := doc_elems D (ih' n (Nat.le_refl n)) (e := e) (ca' := true) (j := j) (vs := vs)
                    (loc := fun i => .heap (d + i * (W.E e).size))
                    (fun k x hx => ⟨⟨k', hj⟩, hvs k x hx, fun _ => .inr ⟨_, fun h => hd (Nat.add_eq_zero_iff.mp h).1, rfl⟩⟩) (fun x hx => allFine_part hf (.slice hk hx)) h
                  exact ⟨_, l2, .slice hb hk he l1 l3⟩
          | array m e =>
            have hqf := nq (by rw [hk]; rfl) (by rw [hk]; rfl)
            subst hqf
            have hS := S
            rw [stands_runV D.ready S] at h
            obtain ⟨k', j, hj, rfl⟩ := byKind_array hb hk hm
            obtain ⟨vs, rfl, hlen, hvs⟩ := repr_array D.ready.types hk S.holds
            simp only [runV, execV, encodeArrayV] at h
            have hel : arrayLoopV (runV W M o n) path j 0 vs [] = .ok b → (ByteElem W.E e → bmHas o.flags .byteArrayAsString = false) →
                DocOf W M o t ca false (.array vs) b := by
              intro h hno
              obtain ⟨js, l1, l2, l3⟩ := doc_elems D (ih' n (Nat.le_refl n)) (e := e) (ca' := ca) (j := j) (vs := vs)
                (loc := fun i => p.add (i * (W.E e).size))
                (fun k x hx => ⟨⟨k', hj⟩, hvs k x hx, fun hc => by
                  rcases S.addr hc with h | ⟨a, ha, rfl⟩
                  · rw [hk] at h; cases h
                  · exact .inr ⟨a + k * (W.E e).size, fun h => ha (Nat.add_eq_zero_iff.mp h).1, rfl⟩⟩) (fun x hx => allFine_part hf (.array hk hx)) h
              exact ⟨_, l2, .array hb hk hno l1 l3⟩
            split at h
            · next hc =>
              simp only [Bool.and_eq_true] at hc
              have he := (isByteElem_iff _ _).mp hc.1
              obtain ⟨bs, hbs, ha⟩ := byteElem_bytes D he (vs := vs) fun x hx => by
                obtain ⟨j, hj⟩ := List.mem_iff_getElem?.mp hx
                exact ⟨_, hvs j x hj⟩
              obtain ⟨body, c, e1, e2, e3⟩ := escaped_text D.escaping bs
              simp only [hbs, withRead, e1, List.nil_append, Res.ok.injEq] at h
              subst h
              exact ⟨.str c, by simpa [strToken, CompactText] using Gr.str (W := NoWs) body c e2, .byteArray hb hk he hc.2 ha e3⟩
            · next hc =>
              refine hel h fun he => ?_
              rw [(isByteElem_iff _ _).mpr he] at hc
              simpa using hc
          | map kt et =>
            have hqf := nq (by rw [hk]; rfl) (by rw [hk]; rfl)
            subst hqf
            by_cases hkey : KeyType W.E kt
            · rcases repr_map D.ready.types hk S.holds with ⟨rfl, -⟩ | ⟨a, es, kvs, rfl, -⟩
              · rw [(C25_map D.ready S hb hk hkey n path []).1 rfl] at h
                simp only [List.nil_append, Res.ok.injEq] at h
                split at h
                · next hc => subst h; exact ⟨_, compact_obj .nil, .mapNil0 hb hk hc⟩
                · next hc => subst h; exact ⟨_, Gr.null, .mapNil hb hk (by simpa using hc)⟩
              · obtain ⟨ms, m1, m2, m3, -⟩ := C23_C24_members D.ready D.fmt D.honest D.order S hb hk hkey rfl h
                rw [List.nil_append] at m3
                obtain ⟨ns, ns', n1, n2, n3, n4, n5⟩ := doc_members (K := KeyText W H o n kt)
                  (V := fun y b => ∃ j a path', Stands W H et false false j (.heap a) y ∧ run W H o n path' j (.heap a) [] = .ok b)
                  (KD := KeyDenotes W M o kt false) (VD := Denotes W M o et false false) m1 m2
                  (fun kv hkv b hb' => key_doc D ih' hkey (fine.key kt et kvs kv hk rfl hkv) (allFine_part hf (.key hk hkv)) hb')
                  (fun kv hkv b hb' => by
                    obtain ⟨j, a, path', hS, hr⟩ := hb'
                    exact ih' n (Nat.le_refl n) _ _ _ _ _ _ _ _ hS (allFine_part hf (.elem hk hkv)) (by simp) hr)
                rw [m3]
                exact ⟨_, n1, .map hb hk n2 n3 n4 n5⟩
            · rw [C42_unsupported S hb (.inr ⟨kt, et, hk, hkey⟩)] at h; cases h
        · exact doc_meth D S hs hp fine h

/-- C30: a value anywhere in a data structure that is encoded without error is encoded as the
text of one JSON value without whitespace, and the tree of that text is the one prescribed for
the value. Missing for the full property: the values that `Fine` excludes, for most of which
the code is wrong (`C30_raw_wrong`, `C30_time_key_wrong`, `C30_duration_key_wrong`, …). -/
theorem C30_value_partial (D : DocReady W H M o) (S : Stands W H t ca false i p v) (hf : AllFine W M o t v) {n : Nat} {path : Path} {dst out : Bytes}
    (h : run W H o n path i p dst = .ok out) : ∃ j b, out = dst ++ b ∧ CompactText j b ∧ Denotes W M o t ca false v j := by
  obtain ⟨b, h1, rfl⟩ := (pre_ok_iff (pre_run (contract_long D.fmt) D.honest n path i p)).mp h
  obtain ⟨j, h2, h3⟩ := doc_upto D n _ _ _ _ _ _ _ _ S hf (by simp) h1
  exact ⟨j, b, rfl, h2, h3⟩

/-- C30 for the calls: what `MarshalOpts` returns, and what `AppendOpts` appends, without error. -/
theorem C30_document_partial (D : DocReady W H M o) {w : Addr} (hx : ReprE W.E H.mem (some (t, w)) (.iface t v)) (hf : AllFine W M o t v)
    {opts : List (Option Opt)} (ho : prepare opts = .ok o) {n : Nat} :
    (∀ b, marshalOpts W H n (some (t, w)) opts = .ret (some b) none →
      ∃ j, CompactText j b ∧ Denotes W M o t (isPtrK (W.E t).kind) false v j) ∧
    (∀ dst out, appendOpts W H n dst (some (t, w)) opts = .ret (some out) none →
      ∃ j b, out = dst ++ b ∧ CompactText j b ∧ Denotes W M o t (isPtrK (W.E t).kind) false v j) := by
  have key : ∀ dst out, appendJSON W (run W H o n) [] (some (t, w)) dst = .ok out →
      ∃ j b, out = dst ++ b ∧ CompactText j b ∧ Denotes W M o t (isPtrK (W.E t).kind) false v j := by
    intro dst out h
    rcases entry (o := o) D.ready hx n with ⟨-, h1⟩ | ⟨i, p, m, S, -, h1⟩
    · rw [h1] at h; cases h
    · rw [h1] at h; exact C30_value_partial D S hf h
  constructor
  · intro b h
    simp only [marshalOpts, ho, marshalJSON] at h
    cases hr : appendJSON W (run W H o n) [] (some (t, w)) [] with
    | ok b' =>
      rw [hr] at h
      simp only [marshalRet, Ret.ret.injEq, Option.some.injEq, and_true] at h
      subst h
      obtain ⟨j, b, h1, h2, h3⟩ := key _ _ hr
      rw [h1, List.nil_append]
      exact ⟨j, h2, h3⟩
    | _ => rw [hr] at h; simp [marshalRet] at h
  · intro dst out h
    simp only [appendOpts, ho, appendTop] at h
    cases hr : appendJSON W (run W H o n) [] (some (t, w)) dst with
    | ok b' =>
      rw [hr] at h
      simp only [appendRet, Ret.ret.injEq, Option.some.injEq, and_true] at h
      subst h
      exact key _ _ hr
    | _ => rw [hr] at h; simp [appendRet] at h

end Jettison.Props
